import Verif.Preprocess.ReModel

/-!
# C141: filters, tokenisers and scanners agree with the regular expressions they are defined by
-/

namespace Verif.Res
open Verif Regex Preprocess

/-! ## One character at a time -/

/-- an expression that matches one character of a class -/
structure OneChar (r : Re) (p : Char → Bool) : Prop where
  yes : ∀ pre c cs caps, p c = true → ∃ caps', r.run ⟨pre, c :: cs, caps⟩ = [⟨c :: pre, cs, caps'⟩]
  no : ∀ pre c cs caps, p c = false → r.run ⟨pre, c :: cs, caps⟩ = []
  nil : ∀ pre caps, r.run ⟨pre, [], caps⟩ = []

theorem one_chr (p : Char → Bool) : OneChar (.chr p) p where
  yes := by intro pre c cs caps h; exact ⟨caps, by unfold Re.run; simp [h]⟩
  no := by intro pre c cs caps h; unfold Re.run; simp [h]
  nil := by intro pre caps; rfl

theorem one_cap (n : Nat) {r : Re} {p : Char → Bool} (h : OneChar r p) : OneChar (.cap n r) p where
  yes := by
    intro pre c cs caps hc
    obtain ⟨caps', e⟩ := h.yes pre c cs caps hc
    exact ⟨_, by unfold Re.run; rw [e]; rfl⟩
  no := by intro pre c cs caps hc; unfold Re.run; rw [h.no pre c cs caps hc]; rfl
  nil := by intro pre caps; unfold Re.run; rw [h.nil]; rfl

theorem one_not (d w : Char → Bool) : OneChar (.seq (.ahead true (.chr d)) (.chr w)) (fun c => !d c && w c) where
  yes := by
    intro pre c cs caps h
    simp only [Bool.and_eq_true, Bool.not_eq_true'] at h
    exact ⟨caps, by simp [Re.run, h.1, h.2]⟩
  no := by
    intro pre c cs caps h
    cases hd : d c with
    | true => simp [Re.run, hd]
    | false =>
      have : w c = false := by simpa [hd] using h
      simp [Re.run, hd, this]
  nil := by intro pre caps; simp [Re.run]

theorem starN_runs {r : Re} {p : Char → Bool} (h : OneChar r p) (u : Str) (n : Nat) (hn : u.length ≤ n) (pre v : Str) (caps : List (Nat × Str))
    (hu : ∀ c ∈ u, p c = true) (hv : ∀ c l, v = c :: l → p c = false) :
    ∃ caps', (starN r.run true n ⟨pre, u ++ v, caps⟩).head? = some ⟨u.reverse ++ pre, v, caps'⟩ := by
  induction u generalizing n pre caps with
  | nil =>
    refine ⟨caps, ?_⟩
    cases n with
    | zero => rfl
    | succ n =>
      have : r.run ⟨pre, v, caps⟩ = [] := by
        cases v with
        | nil => exact h.nil pre caps
        | cons c l => exact h.no pre c l caps (hv c l rfl)
      unfold starN
      rw [List.nil_append, this]
      rfl
  | cons c u ih =>
    cases n with
    | zero => simp at hn
    | succ n =>
      obtain ⟨caps1, e1⟩ := h.yes pre c (u ++ v) caps (hu c (by simp))
      obtain ⟨caps2, e2⟩ := ih n (by simpa using hn) (c :: pre) caps1 (fun x hx => hu x (by simp [hx]))
      refine ⟨caps2, ?_⟩
      unfold starN
      rw [List.cons_append, e1]
      simp only [if_true]
      rw [List.filter_cons_of_pos (by simp), List.filter_nil, List.flatMap_cons, List.flatMap_nil, List.append_nil, List.head?_append, e2]
      simp

theorem plus_yes {r : Re} {p : Char → Bool} (h : OneChar r p) (c : Char) (u pre v : Str) (caps : List (Nat × Str)) (hc : p c = true)
    (hu : ∀ c ∈ u, p c = true) (hv : ∀ c l, v = c :: l → p c = false) :
    ∃ caps', ((plus r).run ⟨pre, c :: (u ++ v), caps⟩).head? = some ⟨u.reverse ++ c :: pre, v, caps'⟩ := by
  obtain ⟨caps1, e1⟩ := h.yes pre c (u ++ v) caps hc
  obtain ⟨caps2, e2⟩ := starN_runs h u (u ++ v).length (by simp) (c :: pre) v caps1 hu hv
  refine ⟨caps2, ?_⟩
  unfold plus Re.run
  rw [e1, List.flatMap_cons, List.flatMap_nil, List.append_nil]
  unfold Re.run
  exact e2

theorem plus_no {r : Re} {p : Char → Bool} (h : OneChar r p) (c : Char) (cs pre : Str) (caps : List (Nat × Str)) (hc : p c = false) :
    (plus r).run ⟨pre, c :: cs, caps⟩ = [] := by
  unfold plus Re.run
  rw [h.no pre c cs caps hc]
  rfl

theorem dropWhile_head (p : Char → Bool) (s : Str) (c : Char) (l : Str) (h : s.dropWhile p = c :: l) : p c = false := by
  induction s with
  | nil => simp at h
  | cons d s ih =>
    rw [List.dropWhile_cons] at h
    split at h
    · exact ih h
    · rename_i hd
      injection h with h1 _
      rw [← h1]
      simpa using hd

theorem takeWhile_all (p : Char → Bool) (s : Str) : ∀ c ∈ s.takeWhile p, p c = true := by
  induction s with
  | nil => simp
  | cons d s ih =>
    intro c hc
    rw [List.takeWhile_cons] at hc
    split at hc
    · rename_i hd
      rcases List.mem_cons.1 hc with rfl | hc
      · exact hd
      · exact ih c hc
    · simp at hc

theorem sub_runs {r : Re} {p : Char → Bool} (h : OneChar r p) (out : Str) (n : Nat) (pre s : Str) (hn : s.length ≤ n) :
    subN (plus r) (const out) n pre s = subRuns p out s := by
  induction n generalizing pre s with
  | zero =>
    have : s = [] := List.length_eq_zero_iff.1 (Nat.le_zero.1 hn)
    subst this
    simp [subN, subRuns]
  | succ n ih =>
    cases s with
    | nil => simp [subN, subRuns]
    | cons c s =>
      rw [subRuns]
      cases hc : p c with
      | false =>
        rw [subN_skip _ _ _ _ _ _ (plus_no h c s pre [] hc), ih _ _ (by simpa using hn)]
        simp
      | true =>
        obtain ⟨caps', e⟩ := plus_yes h c (s.takeWhile p) pre (s.dropWhile p) [] hc (takeWhile_all p s) (dropWhile_head p s)
        rw [List.takeWhile_append_dropWhile] at e
        have hl := (List.dropWhile_suffix (l := s) p).length_le
        rw [subN, e]
        dsimp only
        simp only [List.length_cons] at hn
        rw [if_pos (by omega), ih _ _ (by omega)]
        simp [const]

theorem find_runs {r : Re} {p : Char → Bool} (h : OneChar r p) (u : Uni) (hu : p = alphabetic u) (n : Nat) (pre s : Str) (hn : s.length ≤ n) :
    findN (plus r) n pre s = Preprocess.simpleTokenize u s := by
  subst hu
  induction n generalizing pre s with
  | zero =>
    have : s = [] := List.length_eq_zero_iff.1 (Nat.le_zero.1 hn)
    subst this
    simp [findN, Preprocess.simpleTokenize]
  | succ n ih =>
    cases s with
    | nil => simp [findN, Preprocess.simpleTokenize]
    | cons c s =>
      rw [Preprocess.simpleTokenize]
      cases hc : alphabetic u c with
      | false =>
        rw [findN, plus_no h c s pre [] hc]
        dsimp only [List.head?_nil]
        rw [ih _ _ (by simpa using hn)]
        simp
      | true =>
        obtain ⟨caps', e⟩ := plus_yes h c (s.takeWhile (alphabetic u)) pre (s.dropWhile (alphabetic u)) [] hc (takeWhile_all _ s) (dropWhile_head _ s)
        rw [List.takeWhile_append_dropWhile] at e
        have hl := (List.dropWhile_suffix (l := s) (alphabetic u)).length_le
        rw [findN, e]
        dsimp only
        simp only [List.length_cons] at hn
        rw [if_pos (by omega), ih _ _ (by omega), if_pos rfl]
        congr 1
        have e1 : s.length + 1 - (s.dropWhile (alphabetic u)).length = (c :: s.takeWhile (alphabetic u)).length := by
          have := congrArg List.length (List.takeWhile_append_dropWhile (p := alphabetic u) (l := s))
          rw [List.length_append] at this
          simp only [List.length_cons]
          omega
        rw [e1]
        have e2 : c :: s = (c :: s.takeWhile (alphabetic u)) ++ s.dropWhile (alphabetic u) := by
          rw [List.cons_append, List.takeWhile_append_dropWhile]
        rw [e2, List.take_left]

/-! ## Tags -/

theorem tags_mem (s t : St) (ht : t ∈ reTags.run s) : ∃ c u, s.rest = '<' :: c :: (u ++ '>' :: t.rest) ∧ c ≠ '>' ∧ '>' ∉ u := by
  obtain ⟨v1, h1, ht⟩ := (mem_seq _ _ _ _).1 ht
  obtain ⟨v2, h2, h3⟩ := (mem_seq _ _ _ _).1 ht
  obtain ⟨v3, h4, rfl⟩ := (mem_cap _ _ _ _).1 h2
  obtain ⟨v4, h5, h6⟩ := (mem_seq _ _ _ _).1 h4
  obtain ⟨a, f1, f2, _⟩ := (mem_chr _ _ _).1 h1
  obtain ⟨c, g1, g2, _⟩ := (mem_chr _ _ _).1 h5
  obtain ⟨u, k1, k2, _⟩ := (mem_star_chr _ _ _ _).1 h6
  obtain ⟨b, m1, m2, _⟩ := (mem_chr _ _ _).1 h3
  have i1 : a = '<' := by simpa using f1
  have i2 : b = '>' := by simpa using m1
  subst i1 i2
  dsimp only at m2
  refine ⟨c, u, by rw [f2, g2, k2, m2], by simpa using g1, fun hm => ?_⟩
  simpa using k1 _ hm

theorem tagRest_eq (c : Char) (u r : Str) (hc : c ≠ '>') (hu : '>' ∉ u) : tagRest (c :: (u ++ '>' :: r)) = some r := by
  have e : (c :: (u ++ '>' :: r)).dropWhile (fun x => decide (x ≠ '>')) = '>' :: r := by
    rw [List.dropWhile_cons, if_pos (by simpa using hc)]
    induction u with
    | nil => simp
    | cons d u ih =>
      rw [List.cons_append, List.dropWhile_cons, if_pos]
      · exact ih (fun h => hu (by simp [h]))
      · simp only [decide_eq_true_eq]; rintro rfl; exact hu (by simp)
  unfold tagRest
  rw [e]
  simp [hc]

theorem tagRest_some (s r : Str) (h : tagRest s = some r) : ∃ c u, s = c :: (u ++ '>' :: r) ∧ c ≠ '>' ∧ '>' ∉ u := by
  unfold tagRest at h
  split at h
  · cases h
  · rename_i a b e
    split at h
    · cases h
    · rename_i hh
      cases h
      have ha : a = '>' := by simpa using dropWhile_head _ _ _ _ e
      subst ha
      have hs := List.takeWhile_append_dropWhile (p := fun x => decide (x ≠ '>')) (l := s)
      rw [e] at hs
      have hall := takeWhile_all (fun x => decide (x ≠ '>')) s
      cases ht : s.takeWhile (fun x => decide (x ≠ '>')) with
      | nil =>
        rw [ht] at hs
        rw [← hs] at hh
        simp at hh
      | cons c u =>
        rw [ht] at hs hall
        refine ⟨c, u, by rw [← hs]; rfl, by simpa using hall c (by simp), fun hm => ?_⟩
        simpa using hall _ (List.mem_cons_of_mem _ hm)

theorem sub_tags (n : Nat) (pre s : Str) (hn : s.length ≤ n) : subN reTags (const []) n pre s = Preprocess.stripTags s := by
  induction n generalizing pre s with
  | zero =>
    have : s = [] := List.length_eq_zero_iff.1 (Nat.le_zero.1 hn)
    subst this
    simp [subN, Preprocess.stripTags]
  | succ n ih =>
    cases s with
    | nil => simp [subN, Preprocess.stripTags]
    | cons c s =>
      have hl : s.length ≤ n := by simpa using hn
      rw [Preprocess.stripTags]
      by_cases hc : c = '<'
      · subst hc
        rw [if_pos rfl]
        split
        · rename_i rest htr
          obtain ⟨d, u, e, hd, hu⟩ := tagRest_some s rest htr
          have : ∃ t, (reTags.run ⟨pre, '<' :: s, []⟩).head? = some t ∧ t.rest = rest := by
            apply head_of_all
            · intro h
              have : (⟨'>' :: (u.reverse ++ d :: '<' :: pre), rest, [(1, d :: u)]⟩ : St) ∈ reTags.run ⟨pre, '<' :: s, []⟩ := by
                rw [e]
                refine (mem_seq _ _ _ _).2 ⟨⟨'<' :: pre, d :: (u ++ '>' :: rest), []⟩, (mem_chr _ _ _).2 ⟨'<', by simp, rfl, rfl, rfl⟩, ?_⟩
                refine (mem_seq _ _ _ _).2 ⟨⟨u.reverse ++ d :: '<' :: pre, '>' :: rest, [(1, d :: u)]⟩, ?_, (mem_chr _ _ _).2 ⟨'>', by simp, rfl, rfl, rfl⟩⟩
                refine (mem_cap _ _ _ _).2 ⟨⟨u.reverse ++ d :: '<' :: pre, '>' :: rest, []⟩, ?_, ?_⟩
                · refine (mem_seq _ _ _ _).2 ⟨⟨d :: '<' :: pre, u ++ '>' :: rest, []⟩, (mem_chr _ _ _).2 ⟨d, by simpa using hd, rfl, rfl, rfl⟩, ?_⟩
                  refine (mem_star_chr _ _ _ _).2 ⟨u, ?_, rfl, rfl, rfl⟩
                  intro x hx
                  simp only [decide_eq_true_eq]
                  rintro rfl
                  exact hu hx
                · dsimp only
                  rw [← List.cons_append, List.length_append, Nat.add_sub_cancel, List.take_left]
              rw [h] at this
              simp at this
            · intro t ht
              obtain ⟨d', u', e', hd', hu'⟩ := tags_mem _ _ ht
              dsimp only at e'
              injection e' with _ e'
              have := tagRest_eq d' u' t.rest hd' hu'
              rw [← e', htr] at this
              injection this with this
              exact this.symm
          obtain ⟨t, h1, h2⟩ := this
          have hlt := tagRest_length s rest htr
          rw [subN, h1]
          dsimp only
          rw [h2, if_pos (by omega), ih _ _ (by omega)]
          simp [const]
        · rename_i htr
          rw [subN_skip, ih _ _ hl]
          rw [List.eq_nil_iff_forall_not_mem]
          intro t ht
          obtain ⟨d', u', e', hd', hu'⟩ := tags_mem _ _ ht
          dsimp only at e'
          injection e' with _ e'
          rw [e', tagRest_eq d' u' t.rest hd' hu'] at htr
          cases htr
      · rw [if_neg hc, subN_skip, ih _ _ hl]
        rw [List.eq_nil_iff_forall_not_mem]
        intro t ht
        obtain ⟨d', u', e', _, _⟩ := tags_mem _ _ ht
        dsimp only at e'
        injection e' with e' _
        exact hc e'

/-! ## Letters and digits -/

theorem seq_head (a b : Re) (s x : St) (h : (a.run s).head? = some x) (hb : b.run x ≠ []) : ((Re.seq a b).run s).head? = (b.run x).head? := by
  change ((a.run s).flatMap b.run).head? = _
  cases hr : a.run s with
  | nil => rw [hr] at h; cases h
  | cons y l =>
    rw [hr] at h
    injection h with h
    subst h
    rw [List.flatMap_cons, List.head?_append]
    cases hh : b.run y with
    | nil => exact absurd hh hb
    | cons z m => simp

theorem cap_head (n : Nat) (r : Re) (s t : St) (h : (r.run s).head? = some t) :
    ((Re.cap n r).run s).head? = some { t with caps := (n, s.rest.take (s.rest.length - t.rest.length)) :: t.caps } := by
  unfold Re.run
  rw [List.head?_map, h]
  rfl

/-- two runs of different classes -/
def pairRe (p q : Char → Bool) : Re := .seq (.cap 1 (plus (.chr p))) (.cap 2 (plus (.chr q)))

theorem pair_mem (p q : Char → Bool) (s t : St) (ht : t ∈ (pairRe p q).run s) :
    ∃ c u d z, s.rest = c :: (u ++ d :: z) ∧ p c = true ∧ (∀ x ∈ u, p x = true) ∧ q d = true := by
  obtain ⟨v1, h1, ht⟩ := (mem_seq _ _ _ _).1 ht
  obtain ⟨v2, h2, rfl⟩ := (mem_cap _ _ _ _).1 h1
  obtain ⟨v3, h3, h4⟩ := (mem_seq _ _ _ _).1 h2
  obtain ⟨v4, h5, rfl⟩ := (mem_cap _ _ _ _).1 ht
  obtain ⟨v5, h6, h7⟩ := (mem_seq _ _ _ _).1 h5
  obtain ⟨c, f1, f2, _⟩ := (mem_chr _ _ _).1 h3
  obtain ⟨u, g1, g2, _⟩ := (mem_star_chr _ _ _ _).1 h4
  obtain ⟨d, k1, k2, _⟩ := (mem_chr _ _ _).1 h6
  dsimp only at k2
  exact ⟨c, u, d, v5.rest, by rw [f2, g2, k2], f1, g1, k1⟩

theorem pair_head (p q : Char → Bool) (hpq : ∀ c, q c = true → p c = false) (c d : Char) (u w pre v : Str) (hc : p c = true) (hu : ∀ x ∈ u, p x = true)
    (hd : q d = true) (hw : ∀ x ∈ w, q x = true) (hv : ∀ x l, v = x :: l → q x = false) :
    ∃ t, ((pairRe p q).run ⟨pre, c :: (u ++ (d :: (w ++ v))), []⟩).head? = some t ∧ t.rest = v ∧ apart t = (c :: u) ++ ' ' :: (d :: w) := by
  obtain ⟨caps1, e1⟩ := plus_yes (one_chr p) c u pre (d :: (w ++ v)) [] hc hu (by
    intro x l e; injection e with e _; subst e; exact hpq _ hd)
  have e2 := cap_head 1 _ _ _ e1
  obtain ⟨caps2, e3⟩ := plus_yes (one_chr q) d w (u.reverse ++ c :: pre) v
    ((1, (c :: (u ++ d :: (w ++ v))).take ((c :: (u ++ d :: (w ++ v))).length - (d :: (w ++ v)).length)) :: caps1) hd hw hv
  have e4 := cap_head 2 _ _ _ e3
  have hcaps : caps2 = (1, c :: u) :: caps1 := by
    have : (⟨w.reverse ++ d :: (u.reverse ++ c :: pre), v, caps2⟩ : St) ∈ (plus (.chr q)).run ⟨u.reverse ++ c :: pre, d :: (w ++ v),
      ((1, (c :: (u ++ d :: (w ++ v))).take ((c :: (u ++ d :: (w ++ v))).length - (d :: (w ++ v)).length)) :: caps1)⟩ := List.mem_of_mem_head? (by rw [e3]; rfl)
    obtain ⟨v5, h6, h7⟩ := (mem_seq _ _ _ _).1 this
    obtain ⟨_, _, _, _, k4⟩ := (mem_chr _ _ _).1 h6
    obtain ⟨_, _, _, _, m4⟩ := (mem_star_chr _ _ _ _).1 h7
    dsimp only at k4 m4
    rw [m4, k4]
    congr 2
    rw [← List.cons_append, List.length_append, Nat.add_sub_cancel, List.take_left]
  refine ⟨⟨w.reverse ++ d :: (u.reverse ++ c :: pre), v, (2, (d :: (w ++ v)).take ((d :: (w ++ v)).length - v.length)) :: caps2⟩, ?_, ?_, ?_⟩
  · unfold pairRe
    rw [seq_head _ _ _ _ e2]
    · exact e4
    · intro hh
      rw [hh] at e4
      cases e4
  · rfl
  · unfold apart St.group
    rw [hcaps]
    have e5 : (d :: (w ++ v)).take ((d :: (w ++ v)).length - v.length) = d :: w := by
      rw [← List.cons_append, List.length_append, Nat.add_sub_cancel, List.take_left]
    dsimp only
    rw [e5]
    rfl

theorem sub_pair (p q : Char → Bool) (hpq : ∀ c, q c = true → p c = false) (n : Nat) (pre s : Str) (hn : s.length ≤ n) :
    subN (pairRe p q) apart n pre s = subPair p q s := by
  induction n generalizing pre s with
  | zero =>
    have : s = [] := List.length_eq_zero_iff.1 (Nat.le_zero.1 hn)
    subst this
    simp [subN, subPair]
  | succ n ih =>
    cases s with
    | nil => simp [subN, subPair]
    | cons c s =>
      have hl : s.length ≤ n := by simpa using hn
      rw [subPair]
      by_cases hc : p c = true
      · rw [if_pos hc]
        dsimp only
        have hs := List.takeWhile_append_dropWhile (p := p) (l := s)
        have hs2 := List.takeWhile_append_dropWhile (p := q) (l := s.dropWhile p)
        cases ht : (s.dropWhile p).takeWhile q with
        | nil =>
          rw [if_pos rfl, subN_skip, ih _ _ hl]
          rw [List.eq_nil_iff_forall_not_mem]
          intro t htm
          obtain ⟨c', u, d, z, e, _, hu, hd⟩ := pair_mem p q _ _ htm
          dsimp only at e
          injection e with _ e
          have hdw : s.dropWhile p = d :: z := by
            rw [e]
            clear e ht hs hs2 htm
            induction u with
            | nil => rw [List.nil_append, List.dropWhile_cons, if_neg (by rw [hpq d hd]; decide)]
            | cons x u ihu =>
              rw [List.cons_append, List.dropWhile_cons, if_pos (hu x (by simp))]
              exact ihu (fun y hy => hu y (by simp [hy]))
          rw [hdw, List.takeWhile_cons, if_pos hd] at ht
          cases ht
        | cons d w =>
          rw [if_neg (by simp)]
          rw [ht] at hs2
          obtain ⟨t, g1, g2, g3⟩ := pair_head p q hpq c d (s.takeWhile p) w pre ((s.dropWhile p).dropWhile q) hc (takeWhile_all p s)
            (takeWhile_all q (s.dropWhile p) d (by rw [ht]; simp)) (fun x hx => takeWhile_all q (s.dropWhile p) x (by rw [ht]; simp [hx]))
            (dropWhile_head q _)
          have es : s.takeWhile p ++ (d :: (w ++ (s.dropWhile p).dropWhile q)) = s := by
            rw [show d :: (w ++ (s.dropWhile p).dropWhile q) = s.dropWhile p from hs2, hs]
          rw [es] at g1
          have h1 := (List.dropWhile_suffix (l := s) p).length_le
          have h2 := (List.dropWhile_suffix (l := s.dropWhile p) q).length_le
          rw [subN, g1]
          dsimp only
          rw [g2, g3, if_pos (by omega), ih _ _ (by omega)]
      · rw [if_neg hc, subN_skip, ih _ _ hl]
        rw [List.eq_nil_iff_forall_not_mem]
        intro t ht
        obtain ⟨c', u, d, z, e, h1, _, _⟩ := pair_mem p q _ _ ht
        dsimp only at e
        injection e with e _
        rw [e] at hc
        exact hc h1

/-! ## The theorems about preprocessing -/

theorem sub_map (q : Char → Bool) (n : Nat) (pre s : Str) (hn : s.length ≤ n) :
    subN (.chr fun c => !q c) (const [' ']) n pre s = s.map fun c => if q c then c else ' ' := by
  induction n generalizing pre s with
  | zero =>
    have : s = [] := List.length_eq_zero_iff.1 (Nat.le_zero.1 hn)
    subst this
    simp [subN]
  | succ n ih =>
    cases s with
    | nil => simp [subN]
    | cons c s =>
      have hl : s.length ≤ n := by simpa using hn
      cases hc : q c with
      | true =>
        rw [subN_skip _ _ _ _ _ _ ((one_chr _).no pre c s [] (by simp [hc])), ih _ _ hl]
        simp [hc]
      | false =>
        obtain ⟨caps', e⟩ := (one_chr fun c => !q c).yes pre c s [] (by simp [hc])
        rw [subN, e]
        simp only [List.head?_cons]
        rw [if_pos (by omega), ih _ _ hl]
        simp [hc, const]

/-- **C141.** The filters that replace or delete runs of characters. -/
theorem C141_filters (u : Uni) (s : Str) :
    stripPunctuation s = Preprocess.stripPunctuation s ∧ stripNumeric s = Preprocess.stripNumeric s ∧
    stripMultipleWhitespaces u s = Preprocess.stripMultipleWhitespaces u s ∧ stripNonAlphanum u s = Preprocess.stripNonAlphanum u s ∧
    stripTags s = Preprocess.stripTags s := by
  refine ⟨?_, ?_, ?_, ?_, ?_⟩
  · unfold stripPunctuation sub rePunct
    rw [sub_runs (one_cap 1 (one_chr _)) _ _ _ _ (Nat.le_refl _)]
    unfold Preprocess.stripPunctuation
    congr 1
    funext c
    simp
  · exact sub_runs (one_chr _) _ _ _ _ (Nat.le_refl _)
  · exact sub_runs (one_cap 1 (one_chr _)) _ _ _ _ (Nat.le_refl _)
  · exact sub_map u.word _ _ _ (Nat.le_refl _)
  · exact sub_tags _ _ _ (Nat.le_refl _)

/-- Letters and digits are put apart. -/
theorem C141_split (s : Str) : splitAlphanum s = Preprocess.splitAlphanum s := by
  have h1 : ∀ c, isDigit c = true → isLower c = false := by
    intro c h
    simp only [isDigit, isLower, Bool.and_eq_true, decide_eq_true_eq] at h ⊢
    have h2 : c ≤ '9' := h.2
    cases hl : decide ('a' ≤ c) with
    | false => rfl
    | true =>
      have h3 : 'a' ≤ c := by simpa using hl
      have h4 := Char.le_trans h3 h2
      exact absurd h4 (by decide)
  have h2 : ∀ c, isLower c = true → isDigit c = false := by
    intro c h
    cases hd : isDigit c with
    | false => rfl
    | true => rw [h1 c hd] at h; cases h
  have e1 : sub reAlNum apart s = subPair isLower isDigit s := sub_pair isLower isDigit h1 _ _ _ (Nat.le_refl _)
  have e2 : ∀ s, sub reNumAl apart s = subPair isDigit isLower s := fun s => sub_pair isDigit isLower h2 _ _ _ (Nat.le_refl _)
  unfold splitAlphanum Preprocess.splitAlphanum
  rw [e1, e2]

/-- The tokens are the longest runs of letters. -/
theorem C141_tokens (u : Uni) (s : Str) : simpleTokenize u s = Preprocess.simpleTokenize u s :=
  find_runs (one_cap 2 (one_not u.digit u.word)) u rfl _ _ _ (Nat.le_refl _)

end Verif.Res
