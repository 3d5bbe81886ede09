import Verif.Preprocess.ReProps

/-!
# C141: links and headings of Wikipedia pages, marked articles and the namespace of a dump
-/

namespace Verif.Res
open Verif Regex Preprocess

/-! ## Specification -/

/-- A template `{{word...}}` stands somewhere in the text. -/
def HasTemplate (word text : Str) : Prop := ∃ x y z, text = x ++ "{{".toList ++ word ++ y ++ "}}".toList ++ z

/-! ## Matchers -/

/-- a matcher of `Verif/Wiki/SegModel.lean` is what the expression says -/
def Denotes (r : Re) (m : Str → Option (Str × Str)) : Prop :=
  (∀ pre s, (r.run ⟨pre, s, []⟩).head?.map (fun t => t.rest) = (m s).map (·.2)) ∧ ∀ s h t, m s = some (h, t) → t.length < s.length

theorem split_eq (r : Re) (m : Str → Option (Str × Str)) (h : Denotes r m) (n : Nat) (pre cur s : Str) :
    splitN r n pre cur s = WikiSeg.splitAux m n cur s := by
  induction n generalizing pre cur s with
  | zero => rfl
  | succ n ih =>
    cases s with
    | nil => rfl
    | cons c s =>
      have h1 := h.1 pre (c :: s)
      unfold splitN WikiSeg.splitAux
      cases hm : m (c :: s) with
      | none =>
        rw [hm] at h1
        cases hr : (r.run ⟨pre, c :: s, []⟩).head? with
        | none => exact ih _ _ _
        | some t => rw [hr] at h1; cases h1
      | some x =>
        obtain ⟨a, b⟩ := x
        rw [hm] at h1
        cases hr : (r.run ⟨pre, c :: s, []⟩).head? with
        | none => rw [hr] at h1; cases h1
        | some t =>
          rw [hr] at h1
          have e : t.rest = b := by simpa using h1
          have := h.2 _ _ _ hm
          dsimp only
          rw [e, if_pos (by simpa using this), ih]

theorem findall_eq (r : Re) (m : Str → Option (Str × Str)) (h : Denotes r m)
    (hg : ∀ pre s, (r.run ⟨pre, s, []⟩).head?.map (fun t => t.group 1) = (m s).map (·.1)) (n : Nat) (pre s : Str) :
    findallN r 1 n pre s = WikiSeg.findAux m n s := by
  induction n generalizing pre s with
  | zero => rfl
  | succ n ih =>
    cases s with
    | nil => rfl
    | cons c s =>
      have h1 := h.1 pre (c :: s)
      have h2 := hg pre (c :: s)
      unfold findallN WikiSeg.findAux
      cases hm : m (c :: s) with
      | none =>
        rw [hm] at h1
        cases hr : (r.run ⟨pre, c :: s, []⟩).head? with
        | none => exact ih _ _
        | some t => rw [hr] at h1; cases h1
      | some x =>
        obtain ⟨a, b⟩ := x
        rw [hm] at h1 h2
        cases hr : (r.run ⟨pre, c :: s, []⟩).head? with
        | none => rw [hr] at h1; cases h1
        | some t =>
          rw [hr] at h1 h2
          have e : t.rest = b := by simpa using h1
          have e2 : t.group 1 = a := by simpa using h2
          have := h.2 _ _ _ hm
          dsimp only
          rw [e, e2, if_pos (by simpa using this), ih]

/-! ### links -/

/-- lazily to the first place where `f` succeeds -/
theorem lazy_step (p : Char → Bool) (f : St → List St) (n : Nat) (pre : Str) (c : Char) (s : Str) (caps : List (Nat × Str)) :
    ((starN (Re.chr p).run false (n + 1) ⟨pre, c :: s, caps⟩).flatMap f).head? =
      (f ⟨pre, c :: s, caps⟩).head?.or (if p c then ((starN (Re.chr p).run false n ⟨c :: pre, s, caps⟩).flatMap f).head? else none) := by
  have hs : starN (Re.chr p).run false (n + 1) ⟨pre, c :: s, caps⟩ = ⟨pre, c :: s, caps⟩ :: ((((Re.chr p).run ⟨pre, c :: s, caps⟩).filter fun t => decide (t.rest.length < (c :: s).length)).flatMap (starN (Re.chr p).run false n)) := rfl
  rw [hs]
  simp only [List.flatMap_cons, List.head?_append]
  congr 1
  have hr : (Re.chr p).run ⟨pre, c :: s, caps⟩ = if p c then [⟨c :: pre, s, caps⟩] else [] := rfl
  rw [hr]
  cases hp : p c with
  | true => simp
  | false => simp

/-- greedily to the last place where `f` succeeds -/
theorem greedy_step (p : Char → Bool) (f : St → List St) (n : Nat) (pre : Str) (c : Char) (s : Str) (caps : List (Nat × Str)) :
    ((starN (Re.chr p).run true (n + 1) ⟨pre, c :: s, caps⟩).flatMap f).head? =
      (if p c then ((starN (Re.chr p).run true n ⟨c :: pre, s, caps⟩).flatMap f).head? else none).or (f ⟨pre, c :: s, caps⟩).head? := by
  have hs : starN (Re.chr p).run true (n + 1) ⟨pre, c :: s, caps⟩ = ((((Re.chr p).run ⟨pre, c :: s, caps⟩).filter fun t => decide (t.rest.length < (c :: s).length)).flatMap (starN (Re.chr p).run true n)) ++ [⟨pre, c :: s, caps⟩] := rfl
  rw [hs]
  simp only [List.flatMap_append, List.head?_append, List.flatMap_cons, List.flatMap_nil, List.append_nil]
  congr 1
  have hr : (Re.chr p).run ⟨pre, c :: s, caps⟩ = if p c then [⟨c :: pre, s, caps⟩] else [] := rfl
  rw [hr]
  cases hp : p c with
  | true => simp
  | false => simp

theorem star_nil (p : Char → Bool) (g : Bool) (n : Nat) (pre : Str) (caps : List (Nat × Str)) :
    starN (Re.chr p).run g n ⟨pre, [], caps⟩ = [⟨pre, [], caps⟩] := by
  cases n with
  | zero => rfl
  | succ n => cases g <;> simp [starN, Re.run]

/-- what stands behind two brackets, up to the first two closing ones -/
theorem link_star (f : St → List St) (g : St → Str)
    (hf : ∀ pre s caps, (f ⟨pre, s, caps⟩).head?.map g = match s with | ']' :: ']' :: r => some r | _ => none) (s : Str) (n : Nat) (hn : s.length ≤ n)
    (pre : Str) (caps : List (Nat × Str)) :
    ((starN dot.run false n ⟨pre, s, caps⟩).flatMap f).head?.map g = (WikiSeg.linkEnd s).map (·.2) := by
  induction s generalizing n pre with
  | nil =>
    unfold dot
    rw [star_nil, List.flatMap_cons, List.flatMap_nil, List.append_nil, hf]
    rfl
  | cons c s ih =>
    cases n with
    | zero => simp at hn
    | succ n =>
      unfold dot at ih ⊢
      rw [lazy_step]
      have h0 := hf pre (c :: s) caps
      unfold WikiSeg.linkEnd
      by_cases h1 : c = ']' ∧ s.head? = some ']'
      · obtain ⟨rfl, h2⟩ := h1
        cases s with
        | nil => cases h2
        | cons d s =>
          have : d = ']' := by simpa using h2
          subst this
          have hl : (']' = ']' ∧ (']' :: s).head? = some ']') := ⟨rfl, rfl⟩
          rw [if_pos hl]
          cases hh : (f ⟨pre, ']' :: ']' :: s, caps⟩).head? with
          | none => rw [hh] at h0; cases h0
          | some t => rw [hh] at h0; simpa using h0
      · rw [if_neg h1]
        have hnone : (f ⟨pre, c :: s, caps⟩).head? = none := by
          cases hh : (f ⟨pre, c :: s, caps⟩).head? with
          | none => rfl
          | some t =>
            exfalso
            rw [hh] at h0
            split at h0
            · rename_i e
              injection e with e1 e2
              exact h1 ⟨e1, by rw [e2]; rfl⟩
            · cases h0
        rw [hnone, Option.none_or]
        by_cases hc : c = '\n'
        · rw [if_neg (by simpa using hc), if_pos hc]
          rfl
        · rw [if_pos (by simpa using hc), if_neg hc, ih n (by simpa using hn)]
          cases WikiSeg.linkEnd s with
          | none => rfl
          | some x => rfl

theorem linkEnd_some (s h r : Str) (e : WikiSeg.linkEnd s = some (h, r)) : s = h ++ ']' :: ']' :: r := by
  induction s generalizing h with
  | nil => cases e
  | cons c s ih =>
    unfold WikiSeg.linkEnd at e
    split at e
    · rename_i h1
      cases s with
      | nil => cases h1.2
      | cons d s =>
        have : d = ']' := by simpa using h1.2
        cases e
        rw [h1.1, this]
        rfl
    · split at e
      · cases e
      · split at e
        · rename_i heq
          cases e
          rw [ih _ heq]
          rfl
        · cases e

theorem lit2_head (pre s : Str) (caps : List (Nat × Str)) :
    ((lit "]]".toList).run ⟨pre, s, caps⟩).head?.map (fun t => t.rest) = match s with | ']' :: ']' :: r => some r | _ => none := by
  split
  · rename_i r
    have : (lit "]]".toList).run ⟨pre, ']' :: ']' :: r, caps⟩ = [⟨']' :: ']' :: pre, r, caps⟩] := by
      rw [show "]]".toList = [']', ']'] by decide]
      exact lit_run [']', ']'] pre r caps
    rw [this]
    rfl
  · rename_i hno
    have : (lit "]]".toList).run ⟨pre, s, caps⟩ = [] := by
      rw [List.eq_nil_iff_forall_not_mem]
      intro t ht
      have := ((mem_lit _ _ _).1 ht).1
      rw [show "]]".toList = [']', ']'] by decide] at this
      exact hno t.rest this
    rw [this]
    rfl

/-- the head of the matches of `[[...]]` -/
theorem p16_rest (pre s : Str) : (p16.run ⟨pre, s, []⟩).head?.map (fun t => t.rest) = (WikiSeg.linkMatch s).map (·.2) := by
  unfold WikiSeg.linkMatch
  split
  · rename_i s
    have e : p16.run ⟨pre, '[' :: '[' :: s, []⟩ = (Re.seq (.cap 1 (.star false dot)) (lit "]]".toList)).run ⟨'[' :: '[' :: pre, s, []⟩ := by
      unfold p16 seqs
      rw [show "[[".toList = ['[', '['] by decide]
      exact lit_seq_run ['[', '['] _ pre s []
    rw [e]
    change ((((starN dot.run false s.length ⟨'[' :: '[' :: pre, s, []⟩).map _).flatMap _).head?).map _ = _
    rw [List.flatMap_map]
    exact link_star (fun a => (lit "]]".toList).run ⟨a.pre, a.rest, (1, s.take (s.length - a.rest.length)) :: a.caps⟩) (fun t => t.rest) (fun pre' s' caps' => lit2_head pre' s' _) s s.length (Nat.le_refl _) ('[' :: '[' :: pre) []
  · rename_i hno
    have : p16.run ⟨pre, s, []⟩ = [] := by
      rw [List.eq_nil_iff_forall_not_mem]
      intro t ht
      obtain ⟨v, hv, _⟩ := (mem_seq _ _ _ _).1 ht
      have := ((mem_lit _ _ _).1 hv).1
      rw [show "[[".toList = ['[', '['] by decide] at this
      exact hno v.rest this
    rw [this]
    rfl

/-- the group between delimiters is what was consumed between them -/
theorem group_between (o c : Str) (r : Re) (s t : St) (ht : t ∈ (seqs [lit o, .cap 1 r, lit c]).run s) : s.rest = o ++ (t.group 1 ++ (c ++ t.rest)) := by
  obtain ⟨v1, h1, ht⟩ := (mem_seq _ _ _ _).1 ht
  obtain ⟨v2, h2, h3⟩ := (mem_seq _ _ _ _).1 ht
  obtain ⟨v3, h4, rfl⟩ := (mem_cap _ _ _ _).1 h2
  obtain ⟨u, hu⟩ := run_eats _ _ _ h4
  obtain ⟨e1, _, _⟩ := (mem_lit _ _ _).1 h1
  obtain ⟨e2, _, e3⟩ := (mem_lit _ _ _).1 h3
  dsimp only at e2 e3
  have e4 : t.group 1 = u := by
    unfold St.group
    rw [e3, List.lookup_cons]
    simp only [beq_self_eq_true, Option.getD_some]
    rw [hu.rest, List.length_append, Nat.add_sub_cancel, List.take_left]
  rw [e1, hu.rest, e2, e4]

theorem linkMatch_some (s h r : Str) (e : WikiSeg.linkMatch s = some (h, r)) : s = '[' :: '[' :: (h ++ ']' :: ']' :: r) := by
  unfold WikiSeg.linkMatch at e
  split at e
  · rw [linkEnd_some _ _ _ e]
  · cases e

theorem p16_denotes : Denotes p16 WikiSeg.linkMatch := by
  refine ⟨p16_rest, ?_⟩
  intro s h t e
  rw [linkMatch_some s h t e]
  simp
  omega

theorem p16_group (pre s : Str) : (p16.run ⟨pre, s, []⟩).head?.map (fun t => t.group 1) = (WikiSeg.linkMatch s).map (·.1) := by
  have h := p16_rest pre s
  cases hm : WikiSeg.linkMatch s with
  | none =>
    rw [hm] at h
    cases hr : (p16.run ⟨pre, s, []⟩).head? with
    | none => rfl
    | some t => rw [hr] at h; cases h
  | some x =>
    obtain ⟨a, b⟩ := x
    rw [hm] at h
    cases hr : (p16.run ⟨pre, s, []⟩).head? with
    | none => rw [hr] at h; cases h
    | some t =>
      rw [hr] at h
      have e : t.rest = b := by simpa using h
      have e1 := group_between _ _ _ _ _ (List.mem_of_mem_head? (by rw [hr]; rfl) : t ∈ p16.run ⟨pre, s, []⟩)
      dsimp only at e1
      rw [linkMatch_some s a b hm, e, show "[[".toList = ['[', '['] by decide, show "]]".toList = [']', ']'] by decide] at e1
      have e2 : a ++ ([']', ']'] ++ b) = t.group 1 ++ ([']', ']'] ++ b) := by simpa using e1
      simp [List.append_cancel_right e2]

/-! ### headings -/

/-- the end of a heading -/
def headRe : Re := .seq (.chr fun c => c ≠ '=') (lit "==\n".toList)

theorem headRe_rest (pre s : Str) (caps : List (Nat × Str)) : (headRe.run ⟨pre, s, caps⟩).head?.map (fun t => t.rest) = (WikiSeg.headEnd s).map (·.2) := by
  have key : ∀ t ∈ headRe.run ⟨pre, s, caps⟩, ∃ c, c ≠ '=' ∧ s = c :: '=' :: '=' :: '\n' :: t.rest := by
    intro t ht
    obtain ⟨v, h1, h2⟩ := (mem_seq _ _ _ _).1 ht
    obtain ⟨c, f1, f2, _⟩ := (mem_chr _ _ _).1 h1
    have f3 := ((mem_lit _ _ _).1 h2).1
    rw [show "==\n".toList = ['=', '=', '\n'] by decide] at f3
    exact ⟨c, by simpa using f1, by rw [← (show s = c :: v.rest from f2).symm, f3]; rfl⟩
  have hnone : WikiSeg.headEnd s = none → headRe.run ⟨pre, s, caps⟩ = [] := by
    intro h
    rw [List.eq_nil_iff_forall_not_mem]
    intro t ht
    obtain ⟨c, h1, rfl⟩ := key t ht
    simp [WikiSeg.headEnd, h1] at h
  cases hm : WikiSeg.headEnd s with
  | none => rw [hnone hm]; rfl
  | some x =>
    unfold WikiSeg.headEnd at hm
    split at hm
    · rename_i c r
      split at hm
      · cases hm
      · rename_i hc
        have e : headRe.run ⟨pre, c :: '=' :: '=' :: '\n' :: r, caps⟩ = [⟨'\n' :: '=' :: '=' :: c :: pre, r, caps⟩] := by
          have : (Re.chr fun c => decide (c ≠ '=')).run ⟨pre, c :: '=' :: '=' :: '\n' :: r, caps⟩ = [⟨c :: pre, '=' :: '=' :: '\n' :: r, caps⟩] := by
            simp [Re.run, hc]
          change ((Re.chr fun c => decide (c ≠ '=')).run _).flatMap (lit "==\n".toList).run = _
          rw [this, List.flatMap_cons, List.flatMap_nil, List.append_nil, show "==\n".toList = ['=', '=', '\n'] by decide]
          exact lit_run ['=', '=', '\n'] (c :: pre) r caps
        rw [e]
        cases hm
        rfl
    · cases hm

theorem head_star (f : St → List St) (hf : ∀ pre s caps, (f ⟨pre, s, caps⟩).head?.map (fun t => t.rest) = (WikiSeg.headEnd s).map (·.2)) (s : Str) (n : Nat)
    (hn : s.length ≤ n) (pre : Str) (caps : List (Nat × Str)) :
    ((starN dot.run true n ⟨pre, s, caps⟩).flatMap f).head?.map (fun t => t.rest) = (WikiSeg.headStar s).map (·.2) := by
  induction s generalizing n pre with
  | nil =>
    unfold dot
    rw [star_nil, List.flatMap_cons, List.flatMap_nil, List.append_nil, hf]
    rfl
  | cons c s ih =>
    cases n with
    | zero => simp at hn
    | succ n =>
      unfold dot at ih ⊢
      rw [greedy_step]
      have h0 := hf pre (c :: s) caps
      have h1 := ih n (by simpa using hn) (c :: pre)
      unfold WikiSeg.headStar
      by_cases hc : c = '\n'
      · rw [if_neg (by simpa using hc), Option.none_or, if_pos hc]
        exact h0
      · rw [if_pos (by simpa using hc), if_neg hc]
        cases hs : WikiSeg.headStar s with
        | none =>
          rw [hs] at h1
          cases hr : ((starN (Re.chr fun x => decide (x ≠ '\n')).run true n ⟨c :: pre, s, caps⟩).flatMap f).head? with
          | none => rw [Option.none_or]; exact h0
          | some t => rw [hr] at h1; cases h1
        | some x =>
          rw [hs] at h1
          cases hr : ((starN (Re.chr fun x => decide (x ≠ '\n')).run true n ⟨c :: pre, s, caps⟩).flatMap f).head? with
          | none => rw [hr] at h1; cases h1
          | some t =>
            rw [hr] at h1
            rw [Option.some_or]
            simpa using h1

theorem headEnd_some (s h r : Str) (e : WikiSeg.headEnd s = some (h, r)) : s = h ++ '=' :: '=' :: '\n' :: r := by
  unfold WikiSeg.headEnd at e
  split at e
  · split at e
    · cases e
    · cases e; rfl
  · cases e

theorem headStar_some (s h r : Str) (e : WikiSeg.headStar s = some (h, r)) : s = h ++ '=' :: '=' :: '\n' :: r := by
  induction s generalizing h with
  | nil => cases e
  | cons c s ih =>
    unfold WikiSeg.headStar at e
    split at e
    · rename_i heq
      split at heq
      · cases heq
      · cases e
        rw [ih _ heq]
        rfl
    · exact headEnd_some _ _ _ e

theorem headMatch_some (s h r : Str) (e : WikiSeg.headMatch s = some (h, r)) : s = '\n' :: '=' :: '=' :: (h ++ '=' :: '=' :: '\n' :: r) := by
  unfold WikiSeg.headMatch at e
  split at e
  · split at e
    · cases e
    · split at e
      · rename_i heq
        cases e
        rw [headStar_some _ _ _ heq]
        rfl
      · cases e
  · cases e

/-- a heading up to its text, the same for both expressions -/
theorem heading_front (r : Re) (pre s : Str)
    (hr : ∀ pre c s, c ≠ '=' → ((Re.seq (.chr fun c => c ≠ '=') r).run ⟨pre, c :: s, []⟩).head?.map (fun t => t.rest) = (WikiSeg.headStar s).map (·.2)) :
    ((Re.seq (lit "\n==".toList) (.seq (.chr fun c => c ≠ '=') r)).run ⟨pre, s, []⟩).head?.map (fun t => t.rest) = (WikiSeg.headMatch s).map (·.2) := by
  have hl : "\n==".toList = ['\n', '=', '='] := by decide
  rw [hl]
  unfold WikiSeg.headMatch
  split
  · rename_i c s
    have e : (Re.seq (lit ['\n', '=', '=']) (.seq (.chr fun c => c ≠ '=') r)).run ⟨pre, '\n' :: '=' :: '=' :: c :: s, []⟩ =
        (Re.seq (.chr fun c => c ≠ '=') r).run ⟨'=' :: '=' :: '\n' :: pre, c :: s, []⟩ := lit_seq_run ['\n', '=', '='] _ pre (c :: s) []
    rw [e]
    by_cases hc : c = '='
    · rw [if_pos hc, run_head]
      · rfl
      · intro d hd
        have : c = d := by simpa using hd
        simp [← this, hc]
    · rw [if_neg hc, hr _ c s hc]
      cases WikiSeg.headStar s with
      | none => rfl
      | some x => rfl
  · rename_i hno
    have : (Re.seq (lit ['\n', '=', '=']) (.seq (.chr fun c => c ≠ '=') r)).run ⟨pre, s, []⟩ = [] := by
      rw [List.eq_nil_iff_forall_not_mem]
      intro t ht
      obtain ⟨v, hv, ht⟩ := (mem_seq _ _ _ _).1 ht
      have h1 := ((mem_lit _ _ _).1 hv).1
      obtain ⟨w, hw, _⟩ := (mem_seq _ _ _ _).1 ht
      obtain ⟨c, _, h2, _⟩ := (mem_chr _ _ _).1 hw
      dsimp only at h1
      rw [h2] at h1
      exact hno c w.rest h1
    rw [this]
    rfl

theorem chr_seq_run (p : Char → Bool) (r : Re) (pre : Str) (c : Char) (s : Str) (caps : List (Nat × Str)) (h : p c = true) :
    (Re.seq (.chr p) r).run ⟨pre, c :: s, caps⟩ = r.run ⟨c :: pre, s, caps⟩ := by
  change ((Re.chr p).run _).flatMap r.run = _
  have : (Re.chr p).run ⟨pre, c :: s, caps⟩ = [⟨c :: pre, s, caps⟩] := by simp [Re.run, h]
  rw [this, List.flatMap_cons, List.flatMap_nil, List.append_nil]

theorem heading_rest (pre s : Str) : (heading.run ⟨pre, s, []⟩).head?.map (fun t => t.rest) = (WikiSeg.headMatch s).map (·.2) := by
  apply heading_front (Re.seq (.star true dot) headRe) pre s
  intro pre c s hc
  rw [chr_seq_run _ _ _ _ _ _ (by simpa using hc)]
  exact head_star headRe.run (fun pre s caps => headRe_rest pre s caps) s s.length (Nat.le_refl _) (c :: pre) []

theorem capture_rest (pre s : Str) : (headingCapture.run ⟨pre, s, []⟩).head?.map (fun t => t.rest) = (WikiSeg.headMatch s).map (·.2) := by
  have hl : "\n==".toList = ['\n', '=', '='] := by decide
  -- the matches are those of the expression without the group, up to the group
  have key : ∀ pre s, (headingCapture.run ⟨pre, s, []⟩).map (fun t => (t.pre, t.rest)) = (heading.run ⟨pre, s, []⟩).map (fun t => (t.pre, t.rest)) := by
    intro pre s
    change ((Re.seq (lit "\n==".toList) _).run _).map _ = ((Re.seq (lit "\n==".toList) _).run _).map _
    change (((lit "\n==".toList).run _).flatMap _).map _ = (((lit "\n==".toList).run _).flatMap _).map _
    rw [List.map_flatMap, List.map_flatMap]
    congr 1
    funext v
    change ((((Re.seq (.chr fun c => c ≠ '=') (.seq (.star true dot) (.chr fun c => c ≠ '='))).run v).map _).flatMap (lit "==\n".toList).run).map _ = _
    rw [List.flatMap_map, List.map_flatMap]
    change (List.flatMap _ (((Re.chr fun c => c ≠ '=').run v).flatMap _)) = ((((Re.chr fun c => c ≠ '=').run v).flatMap _)).map _
    rw [List.flatMap_assoc, List.map_flatMap]
    congr 1
    funext w
    change List.flatMap _ (((Re.star true dot).run w).flatMap (Re.chr fun c => c ≠ '=').run) =
      (((Re.star true dot).run w).flatMap (fun x => (((Re.chr fun c => c ≠ '=').run x).flatMap (lit "==\n".toList).run))).map _
    rw [List.flatMap_assoc, List.map_flatMap]
    congr 1
    funext x
    rw [List.map_flatMap]
    congr 1
    funext y
    -- a literal does not look at the groups
    have hlit : ∀ (w : Str) (pre rest : Str) (c1 c2 : List (Nat × Str)), ((lit w).run ⟨pre, rest, c1⟩).map (fun t => (t.pre, t.rest)) =
        ((lit w).run ⟨pre, rest, c2⟩).map (fun t => (t.pre, t.rest)) := by
      intro w
      induction w with
      | nil => intros; rfl
      | cons a w ih =>
        intro pre rest c1 c2
        cases rest with
        | nil => rfl
        | cons b rest =>
          unfold lit
          by_cases hb : b = a
          · unfold ch
            rw [chr_seq_run _ _ _ _ _ _ (by simpa using hb), chr_seq_run _ _ _ _ _ _ (by simpa using hb)]
            exact ih _ _ _ _
          · unfold ch
            rw [run_head _ _ _ (by intro c hc; have : b = c := by simpa using hc
                                   simpa [← this] using hb),
              run_head _ _ _ (by intro c hc; have : b = c := by simpa using hc
                                 simpa [← this] using hb)]
    exact hlit _ _ _ _ _
  have h1 := congrArg List.head? (key pre s)
  rw [List.head?_map, List.head?_map] at h1
  rw [← heading_rest pre s]
  have h2 := congrArg (Option.map Prod.snd) h1
  rw [Option.map_map, Option.map_map] at h2
  exact h2

theorem heading_denotes : Denotes heading WikiSeg.headMatch := by
  refine ⟨heading_rest, ?_⟩
  intro s h t e
  rw [headMatch_some s h t e]
  simp
  omega

theorem capture_denotes : Denotes headingCapture WikiSeg.headMatch := ⟨capture_rest, heading_denotes.2⟩

theorem capture_group (pre s : Str) : (headingCapture.run ⟨pre, s, []⟩).head?.map (fun t => t.group 1) = (WikiSeg.headMatch s).map (·.1) := by
  have h := capture_rest pre s
  cases hm : WikiSeg.headMatch s with
  | none =>
    rw [hm] at h
    cases hr : (headingCapture.run ⟨pre, s, []⟩).head? with
    | none => rfl
    | some t => rw [hr] at h; cases h
  | some x =>
    obtain ⟨a, b⟩ := x
    rw [hm] at h
    cases hr : (headingCapture.run ⟨pre, s, []⟩).head? with
    | none => rw [hr] at h; cases h
    | some t =>
      rw [hr] at h
      have e : t.rest = b := by simpa using h
      have e1 := group_between _ _ _ _ _ (List.mem_of_mem_head? (by rw [hr]; rfl) : t ∈ headingCapture.run ⟨pre, s, []⟩)
      dsimp only at e1
      rw [headMatch_some s a b hm, e, show "\n==".toList = ['\n', '=', '='] by decide, show "==\n".toList = ['=', '=', '\n'] by decide] at e1
      have e2 : a ++ (['=', '=', '\n'] ++ b) = t.group 1 ++ (['=', '=', '\n'] ++ b) := by simpa using e1
      simp [List.append_cancel_right e2]

/-! ## The theorems -/

/-- The links and the headings that are found, and the parts between the headings, are those of the scanners. -/
theorem C141_wiki (s : Str) :
    findall p16 1 s = WikiSeg.reFindall WikiSeg.linkMatch s ∧ findall headingCapture 1 s = WikiSeg.reFindall WikiSeg.headMatch s ∧
    resplit heading s = WikiSeg.reSplit WikiSeg.headMatch s :=
  ⟨findall_eq _ _ p16_denotes p16_group _ _ _, findall_eq _ _ capture_denotes capture_group _ _ _, split_eq _ _ heading_denotes _ _ _ _⟩

theorem marked_iff (u : Uni) (word s : Str) : (marked u word).run ⟨[], s, []⟩ ≠ [] ↔ HasTemplate word s := by
  constructor
  · intro h
    obtain ⟨t, ht⟩ := List.exists_mem_of_ne_nil _ h
    obtain ⟨v1, h1, ht⟩ := (mem_seq _ _ _ _).1 ht
    obtain ⟨v2, h2, ht⟩ := (mem_seq _ _ _ _).1 ht
    obtain ⟨v3, h3, ht⟩ := (mem_seq _ _ _ _).1 ht
    obtain ⟨v4, h4, _⟩ := (mem_seq _ _ _ _).1 ht
    obtain ⟨v5, h5, rfl⟩ := (mem_cap _ _ _ _).1 h3
    obtain ⟨v6, h6, h7⟩ := (mem_seq _ _ _ _).1 h5
    obtain ⟨x, _, e1, _⟩ := (mem_star_chr _ _ _ _).1 h1
    have e2 := ((mem_lit _ _ _).1 h2).1
    have e3 := ((mem_lit _ _ _).1 h6).1
    obtain ⟨y, _, e4, _⟩ := (mem_star_chr _ _ _ _).1 h7
    have e5 := ((mem_lit _ _ _).1 h4).1
    dsimp only at e1 e5
    exact ⟨x, y, v4.rest, by rw [e1, e2, e3, e4, e5]; simp only [List.append_assoc]⟩
  · rintro ⟨x, y, z, rfl⟩ h
    have h1 : (⟨x.reverse, "{{".toList ++ (word ++ (y ++ ("}}".toList ++ z))), []⟩ : St) ∈
        (Re.star true any).run ⟨[], x ++ "{{".toList ++ word ++ y ++ "}}".toList ++ z, []⟩ :=
      (mem_star_chr _ _ _ _).2 ⟨x, fun _ _ => rfl, by simp only [List.append_assoc], by simp, rfl⟩
    have h2 : (⟨"{{".toList.reverse ++ x.reverse, word ++ (y ++ ("}}".toList ++ z)), []⟩ : St) ∈ (lit "{{".toList).run
        ⟨x.reverse, "{{".toList ++ (word ++ (y ++ ("}}".toList ++ z))), []⟩ := (mem_lit _ _ _).2 ⟨rfl, rfl, rfl⟩
    have h3 : (⟨word.reverse ++ ("{{".toList.reverse ++ x.reverse), y ++ ("}}".toList ++ z), []⟩ : St) ∈ (lit word).run
        ⟨"{{".toList.reverse ++ x.reverse, word ++ (y ++ ("}}".toList ++ z)), []⟩ := (mem_lit _ _ _).2 ⟨rfl, rfl, rfl⟩
    have h4 : (⟨y.reverse ++ (word.reverse ++ ("{{".toList.reverse ++ x.reverse)), "}}".toList ++ z, []⟩ : St) ∈ (Re.star false any).run
        ⟨word.reverse ++ ("{{".toList.reverse ++ x.reverse), y ++ ("}}".toList ++ z), []⟩ := (mem_star_chr _ _ _ _).2 ⟨y, fun _ _ => rfl, rfl, rfl, rfl⟩
    have h5 := (mem_cap 1 _ _ _).2 ⟨_, (mem_seq _ _ _ _).2 ⟨_, h3, h4⟩, rfl⟩
    obtain ⟨t, ht⟩ : ∃ t, t ∈ (Re.seq (lit "}}".toList) (.star true (.chr u.space))).run
        ⟨y.reverse ++ (word.reverse ++ ("{{".toList.reverse ++ x.reverse)), "}}".toList ++ z,
          [(1, (word ++ (y ++ ("}}".toList ++ z))).take ((word ++ (y ++ ("}}".toList ++ z))).length - ("}}".toList ++ z).length))]⟩ := by
      generalize y.reverse ++ (word.reverse ++ ("{{".toList.reverse ++ x.reverse)) = pr
      generalize [(1, (word ++ (y ++ ("}}".toList ++ z))).take ((word ++ (y ++ ("}}".toList ++ z))).length - ("}}".toList ++ z).length))] = cp
      exact ⟨⟨"}}".toList.reverse ++ pr, z, cp⟩, (mem_seq _ _ _ _).2 ⟨⟨"}}".toList.reverse ++ pr, z, cp⟩, (mem_lit _ _ _).2 ⟨rfl, rfl, rfl⟩,
        (mem_star_chr _ _ _ _).2 ⟨[], by simp, rfl, rfl, rfl⟩⟩⟩
    have := (mem_seq _ _ _ _).2 ⟨_, h1, (mem_seq _ _ _ _).2 ⟨_, h2, (mem_seq _ _ _ _).2 ⟨_, h5, ht⟩⟩⟩
    have h' : t ∈ (marked u word).run ⟨[], x ++ "{{".toList ++ word ++ y ++ "}}".toList ++ z, []⟩ := this
    rw [h] at h'
    simp at h'

/-- The example filter keeps exactly the articles with one of the two templates. -/
theorem C141_example (u : Uni) (text : Option Str) : filterExample u text = true ↔
    ∃ s, text = some s ∧ (HasTemplate "Exzellent".toList s ∨ HasTemplate "Lesenswert".toList s) := by
  unfold filterExample
  cases text with
  | none => simp
  | some s =>
    simp only [Bool.or_eq_true, Bool.not_eq_true', List.isEmpty_eq_false_iff, marked_iff, Option.some.injEq, exists_eq_left']

/-- The namespace of a dump is what stands in braces before the name of the root element, and other files are refused. -/
theorem C141_namespace (tag ns : Str) : getNamespace tag = .ok ns ↔
    ("http://www.mediawiki.org/xml/export-".toList <+: ns ∧ '}' ∉ ns ∧ '\n' ∉ ns ∧ ∃ rest, tag = '{' :: (ns ++ '}' :: rest)) := by
  generalize hP : "http://www.mediawiki.org/xml/export-".toList = P
  have hP0 : P ≠ [] := by rw [← hP]; decide
  have key : ∀ ns rest, '}' ∉ ns → '\n' ∉ ns →
      ∃ t, ((seqs [bol, ch '{', .cap 1 (.star false dot), ch '}']).run ⟨[], '{' :: (ns ++ '}' :: rest), []⟩).head? = some t ∧ t.group 1 = ns := by
    intro ns rest h1 h2
    have e1 : (seqs [bol, ch '{', .cap 1 (.star false dot), ch '}']).run ⟨[], '{' :: (ns ++ '}' :: rest), []⟩ =
        (Re.seq (.cap 1 (.star false dot)) (ch '}')).run ⟨['{'], ns ++ '}' :: rest, []⟩ := by
      change (bol.run _).flatMap (Re.seq (ch '{') _).run = _
      have : bol.run ⟨[], '{' :: (ns ++ '}' :: rest), []⟩ = [⟨[], '{' :: (ns ++ '}' :: rest), []⟩] := rfl
      rw [this, List.flatMap_cons, List.flatMap_nil, List.append_nil]
      exact chr_seq_run _ _ _ _ _ _ (by simp)
    rw [e1]
    change ∃ t, (((starN dot.run false (ns ++ '}' :: rest).length ⟨['{'], ns ++ '}' :: rest, []⟩).map
      (fun t => ({ t with caps := (1, (ns ++ '}' :: rest).take ((ns ++ '}' :: rest).length - t.rest.length)) :: t.caps } : St))).flatMap (ch '}').run).head? = some t ∧ _
    rw [List.flatMap_map]
    have gen : ∀ (g : St → List (Nat × Str)) (x : Str) (n : Nat) (pre : Str), x.length ≤ n → '}' ∉ x → '\n' ∉ x →
        ((starN dot.run false n ⟨pre, x ++ '}' :: rest, []⟩).flatMap (fun t => (ch '}').run ⟨t.pre, t.rest, g t⟩)).head? =
          some ⟨'}' :: (x.reverse ++ pre), rest, g ⟨x.reverse ++ pre, '}' :: rest, []⟩⟩ := by
      intro g x
      induction x with
      | nil =>
        intro n pre _ _ _
        have : ∃ l, starN dot.run false n ⟨pre, '}' :: rest, []⟩ = ⟨pre, '}' :: rest, []⟩ :: l := by
          cases n with
          | zero => exact ⟨[], rfl⟩
          | succ n => exact ⟨_, rfl⟩
        obtain ⟨l, hl⟩ := this
        rw [List.nil_append, hl, List.flatMap_cons, List.head?_append]
        simp [ch, Re.run]
      | cons c x ih =>
        intro n pre hn hx1 hx2
        cases n with
        | zero => simp at hn
        | succ n =>
          have hc1 : c ≠ '}' := fun e => hx1 (by simp [e])
          have hc2 : c ≠ '\n' := fun e => hx2 (by simp [e])
          have := ih n (c :: pre) (by simpa using hn) (fun h => hx1 (by simp [h])) (fun h => hx2 (by simp [h]))
          unfold dot at this ⊢
          rw [List.cons_append, lazy_step, if_pos (by simpa using hc2), this]
          simp [ch, Re.run, hc1]
    refine ⟨_, gen (fun t => (1, (ns ++ '}' :: rest).take ((ns ++ '}' :: rest).length - t.rest.length)) :: t.caps) ns _ ['{'] (by simp) h1 h2, ?_⟩
    unfold St.group
    dsimp only
    rw [List.lookup_cons]
    simp only [beq_self_eq_true, Option.getD_some]
    rw [List.length_append, Nat.add_sub_cancel, List.take_left]
  unfold getNamespace
  rw [hP]
  dsimp only
  constructor
  · intro h
    cases hm : ((seqs [bol, ch '{', .cap 1 (.star false dot), ch '}']).run ⟨[], tag, []⟩).head? with
    | none =>
      rw [hm] at h
      dsimp only at h
      split at h
      · cases h
      · rename_i hp
        have hp' : P <+: [] := by simpa using hp
        exact absurd (List.prefix_nil.1 hp') hP0
    | some t =>
      rw [hm] at h
      dsimp only at h
      split at h
      · cases h
      · rename_i hp
        have hp' : P <+: t.group 1 := by simpa using hp
        injection h with h
        rw [h] at hp'
        have hmem : t ∈ (seqs [bol, ch '{', .cap 1 (.star false dot), ch '}']).run ⟨[], tag, []⟩ := List.mem_of_mem_head? (by rw [hm]; rfl)
        obtain ⟨v0, h0, ht⟩ := (mem_seq _ _ _ _).1 hmem
        have hv0 : v0 = ⟨[], tag, []⟩ := by simpa [bol, Re.run] using h0
        subst hv0
        obtain ⟨v1, h1, ht⟩ := (mem_seq _ _ _ _).1 ht
        obtain ⟨v2, h2, h3⟩ := (mem_seq _ _ _ _).1 ht
        obtain ⟨v3, h4, rfl⟩ := (mem_cap _ _ _ _).1 h2
        obtain ⟨c, f1, f2, _⟩ := (mem_chr _ _ _).1 h1
        obtain ⟨x, g1, g2, _⟩ := (mem_star_chr _ _ _ _).1 h4
        obtain ⟨d, k1, k2, _, k4⟩ := (mem_chr _ _ _).1 h3
        have i1 : c = '{' := by simpa using f1
        have i2 : d = '}' := by simpa using k1
        subst i1 i2
        dsimp only at f2 k2 k4
        have hx : t.group 1 = x := by
          unfold St.group
          rw [k4, List.lookup_cons]
          simp only [beq_self_eq_true, Option.getD_some]
          rw [g2, List.length_append, Nat.add_sub_cancel, List.take_left]
        have hnl : '\n' ∉ x := fun hmem => by simpa using g1 _ hmem
        have htag : tag = '{' :: (x ++ '}' :: t.rest) := by rw [f2, g2, k2]
        -- lazily, so that no closing brace is in the name
        have hcl : '}' ∉ x := by
          intro hmem
          have e := List.takeWhile_append_dropWhile (p := fun c => decide (c ≠ '}')) (l := x)
          cases hd : x.dropWhile (fun c => decide (c ≠ '}')) with
          | nil =>
            rw [hd, List.append_nil] at e
            have := takeWhile_all (fun c => decide (c ≠ '}')) x '}' (by rw [e]; exact hmem)
            simp at this
          | cons a l =>
            have ha : a = '}' := by simpa using dropWhile_head _ _ _ _ hd
            subst ha
            rw [hd] at e
            obtain ⟨t', q1, q2⟩ := key (x.takeWhile fun c => decide (c ≠ '}')) (l ++ '}' :: t.rest)
              (fun hm' => by simpa using takeWhile_all (fun c => decide (c ≠ '}')) x _ hm')
              (fun hm' => hnl ((List.takeWhile_sublist _).subset hm'))
            have q3 : x.takeWhile (fun c => decide (c ≠ '}')) ++ '}' :: (l ++ '}' :: t.rest) = x ++ '}' :: t.rest := by
              rw [← List.cons_append, ← List.append_assoc, e]
            rw [q3, ← htag, hm] at q1
            injection q1 with q1
            rw [← q1, hx] at q2
            rw [q2] at hmem
            simpa using takeWhile_all (fun c => decide (c ≠ '}')) x _ hmem
        rw [← h, hx]
        rw [← h, hx] at hp'
        exact ⟨hp', hcl, hnl, t.rest, htag⟩
  · rintro ⟨h1, h2, h3, rest, rfl⟩
    obtain ⟨t, q1, q2⟩ := key ns rest h2 h3
    rw [q1]
    dsimp only
    rw [if_neg (by rw [q2]; simpa using h1), q2]

/-- A table of character classes, for examples. -/
def exUni : Uni := ⟨fun c => c = ' ', fun c => c.isAlpha || c.isDigit || c = '_', Char.isDigit, fun s => s⟩

example : stripTags "a <b>c</b> <> d".toList = "a c <> d".toList ∧ splitAlphanum "24.0hours7 days365 a1b2".toList = "24.0 hours 7 days 365 a 1 b 2".toList ∧
    simpleTokenize exUni "ab1cd_e 22 f".toList = ["ab".toList, "cd_e".toList, "f".toList] ∧
    findall headingCapture 1 "x\n== A ==\ny\n==B==\nz".toList = [" A ".toList] ∧
    filterExample exUni (some "x {{Lesenswert|y}} z".toList) = true ∧ filterExample exUni (some "x {Lesenswert} z".toList) = false ∧
    getNamespace "{http://www.mediawiki.org/xml/export-0.10/}mediawiki".toList = .ok "http://www.mediawiki.org/xml/export-0.10/".toList := by decide +kernel

end Verif.Res
