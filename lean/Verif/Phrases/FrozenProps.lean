import Mathlib.Algebra.Order.Ring.Rat
import Verif.Phrases.TrainProps

/-! Property C13: a frozen phrase model decides like the live one. -/

namespace Verif.Phrases
open Verif PyDict Vocab Text

variable {S : Type} [LinearOrder S]

/-! ### simulation between two scorings -/

theorem analyze_sim {σ σ' : Type} (R : σ → σ' → Prop) (conn : List Str)
    (sc : σ → Str → Str → List Str → σ × Option (Str × S))
    (sc' : σ' → Str → Str → List Str → σ' × Option (Str × S))
    (C : Str × List Str × Str → Prop)
    (hsim : ∀ t, C t → ∀ st u, R st u →
      (sc st t.1 t.2.2 t.2.1).2 = (sc' u t.1 t.2.2 t.2.1).2 ∧
      R (sc st t.1 t.2.2 t.2.1).1 (sc' u t.1 t.2.2 t.2.1).1)
    (sent : List Str) :
    (∀ st u out, R st u → (∀ t ∈ candidatesOf conn sent, C t) → (∀ w ∈ sent, w ≠ []) →
      R (analyzeEnd (sent.foldl (analyzeWord conn sc) ⟨st, none, [], out⟩)).1
        (analyzeEnd (sent.foldl (analyzeWord conn sc') ⟨u, none, [], out⟩)).1 ∧
      (analyzeEnd (sent.foldl (analyzeWord conn sc) ⟨st, none, [], out⟩)).2 =
        (analyzeEnd (sent.foldl (analyzeWord conn sc') ⟨u, none, [], out⟩)).2) ∧
    (∀ st u a mid out, R st u → a ≠ [] → a ∉ conn → (∀ m ∈ mid, m ∈ conn) →
      (∀ t ∈ candidatesOf conn (a :: mid ++ sent), C t) → (∀ w ∈ sent, w ≠ []) →
      R (analyzeEnd (sent.foldl (analyzeWord conn sc) ⟨st, some a, mid, out⟩)).1
        (analyzeEnd (sent.foldl (analyzeWord conn sc') ⟨u, some a, mid, out⟩)).1 ∧
      (analyzeEnd (sent.foldl (analyzeWord conn sc) ⟨st, some a, mid, out⟩)).2 =
        (analyzeEnd (sent.foldl (analyzeWord conn sc') ⟨u, some a, mid, out⟩)).2) := by
  induction sent with
  | nil =>
    refine ⟨fun st u out h _ _ => ?_, fun st u a mid out h ha hc hm _ _ => ?_⟩
    · simp [analyzeEnd, truthy, h]
    · simp [analyzeEnd, truthy_some ha, h]
  | cons w sent ih =>
    obtain ⟨ihA, ihB⟩ := ih
    refine ⟨fun st u out h hC hne => ?_, fun st u a mid out h ha hc hm hC hne => ?_⟩
    · have hne' : ∀ v ∈ sent, v ≠ [] := fun v hv => hne v (by simp [hv])
      rw [List.foldl_cons, List.foldl_cons]
      by_cases hw : w ∈ conn
      · have e1 : analyzeWord conn sc ⟨st, none, [], out⟩ w = ⟨st, none, [], out ++ [(w, none)]⟩ := by
          simp [analyzeWord, hw, truthy]
        have e2 : analyzeWord conn sc' ⟨u, none, [], out⟩ w = ⟨u, none, [], out ++ [(w, none)]⟩ := by
          simp [analyzeWord, hw, truthy]
        rw [e1, e2]
        rw [candidatesOf_conn hw] at hC
        exact ihA st u _ h hC hne'
      · have e1 : analyzeWord conn sc ⟨st, none, [], out⟩ w = ⟨st, some w, [], out⟩ := by
          simp [analyzeWord, hw, truthy]
        have e2 : analyzeWord conn sc' ⟨u, none, [], out⟩ w = ⟨u, some w, [], out⟩ := by
          simp [analyzeWord, hw, truthy]
        rw [e1, e2]
        exact ihB st u w [] out h (hne w (by simp)) hw (by simp) (by simpa using hC) hne'
    · have hne' : ∀ v ∈ sent, v ≠ [] := fun v hv => hne v (by simp [hv])
      rw [List.foldl_cons, List.foldl_cons]
      by_cases hw : w ∈ conn
      · have e1 : analyzeWord conn sc ⟨st, some a, mid, out⟩ w = ⟨st, some a, mid ++ [w], out⟩ := by
          simp [analyzeWord, hw, truthy_some ha]
        have e2 : analyzeWord conn sc' ⟨u, some a, mid, out⟩ w = ⟨u, some a, mid ++ [w], out⟩ := by
          simp [analyzeWord, hw, truthy_some ha]
        rw [e1, e2]
        refine ihB st u a (mid ++ [w]) out h ha hc ?_ (by simpa using hC) hne'
        intro m hm'
        rcases List.mem_append.mp hm' with h' | h'
        · exact hm m h'
        · simp at h'; exact h' ▸ hw
      · rw [candidatesOf_word hc hm hw] at hC
        obtain ⟨s1, s2⟩ := hsim (a, mid, w) (hC _ (by simp)) st u h
        simp only at s1 s2
        rcases hr : sc st a w mid with ⟨st', r⟩
        rcases hr' : sc' u a w mid with ⟨u', r'⟩
        rw [hr, hr'] at s1 s2
        simp only at s1 s2
        subst s1
        have hC' : ∀ t ∈ candidatesOf conn (w :: sent), C t := fun t ht => hC t (by simp [ht])
        cases r with
        | none =>
          have e1 : analyzeWord conn sc ⟨st, some a, mid, out⟩ w =
              ⟨st', some w, [], out ++ [(a, none)] ++ mid.map (fun v => (v, none))⟩ := by
            simp [analyzeWord, hw, truthy_some ha, hr]
          have e2 : analyzeWord conn sc' ⟨u, some a, mid, out⟩ w =
              ⟨u', some w, [], out ++ [(a, none)] ++ mid.map (fun v => (v, none))⟩ := by
            simp [analyzeWord, hw, truthy_some ha, hr']
          rw [e1, e2]
          exact ihB st' u' w [] _ s2 (hne w (by simp)) hw (by simp) (by simpa using hC') hne'
        | some ps =>
          have e1 : analyzeWord conn sc ⟨st, some a, mid, out⟩ w =
              ⟨st', none, [], out ++ [(ps.1, some ps.2)]⟩ := by
            simp [analyzeWord, hw, truthy_some ha, hr]
          have e2 : analyzeWord conn sc' ⟨u, some a, mid, out⟩ w =
              ⟨u', none, [], out ++ [(ps.1, some ps.2)]⟩ := by
            simp [analyzeWord, hw, truthy_some ha, hr']
          rw [e1, e2]
          refine ihA st' u' _ s2 ?_ hne'
          intro t ht
          have : candidatesOf conn sent ⊆ candidatesOf conn (w :: sent) := by
            intro t ht
            unfold candidatesOf at ht ⊢
            rw [List.tails_cons, List.filterMap_cons]
            split
            · exact ht
            · exact List.mem_cons_of_mem _ ht
          exact hC' t (this ht)

/-! ### what a lookup decides -/

theorem getD_touch (v : PyDict Str Nat) (k x : Str) : getD (touch v k) x 0 = getD v x 0 := by
  unfold touch
  by_cases h : contains v k = true
  · rw [if_pos h]
  · rw [if_neg h]
    by_cases e : k = x
    · subst e
      rw [getD_set_self, getD_of_not_mem (fun hh => h ((contains_iff _ _).mpr hh))]
    · rw [getD_set_ne _ e]

theorem mem_of_getD_pos {v : PyDict Str Nat} {k : Str} (h : 0 < getD v k 0) : k ∈ keys v := by
  by_contra hn
  rw [getD_of_not_mem hn] at h; omega

theorem touch_mem {v : PyDict Str Nat} {k : Str} (h : k ∈ keys v) : touch v k = v := by
  unfold touch; rw [if_pos ((contains_iff _ _).mpr h)]

theorem touch_pos {v : PyDict Str Nat} {k : Str} (h : 0 < getD v k 0) : touch v k = v :=
  touch_mem (mem_of_getD_pos h)

/-- the answer of `score_candidate` -/
theorem scoreCandidate_snd (c : Cfg S) (words : Nat) (v : PyDict Str Nat) (a b : Str) (mid : List Str) :
    (scoreCandidate c words v a b mid).2 =
      (let p := joinWith c.delim ([a] ++ mid ++ [b])
       let s := c.scoring (getD v a 0) (getD v b 0) (getD v p 0) v.length c.minCount words
       if 0 < getD v a 0 ∧ 0 < getD v b 0 ∧ 0 < getD v p 0 ∧ c.threshold < s then some (p, s) else none) := by
  unfold scoreCandidate
  simp only [getD_touch]
  by_cases h1 : 0 < getD v a 0
  · by_cases h2 : 0 < getD v b 0
    · by_cases h3 : 0 < getD v (joinWith c.delim ([a] ++ mid ++ [b])) 0
      · have n1 : ¬ getD v a 0 ≤ 0 := by omega
        have n2 : ¬ getD v b 0 ≤ 0 := by omega
        have n3 : ¬ getD v (joinWith c.delim ([a] ++ mid ++ [b])) 0 ≤ 0 := by omega
        rw [if_neg n1, if_neg n2, if_neg n3, touch_pos h1, touch_pos h2, touch_pos h3]
        by_cases h4 : c.threshold < c.scoring (getD v a 0) (getD v b 0)
          (getD v (joinWith c.delim ([a] ++ mid ++ [b])) 0) v.length c.minCount words
        · rw [if_neg (not_le.mpr h4), if_pos ⟨h1, h2, h3, h4⟩]
        · rw [if_pos (not_lt.mp h4), if_neg (fun h => h4 h.2.2.2)]
      · have n1 : ¬ getD v a 0 ≤ 0 := by omega
        have n2 : ¬ getD v b 0 ≤ 0 := by omega
        rw [if_neg n1, if_neg n2, if_pos (by omega), if_neg (fun h => h3 h.2.2.1)]
    · have n1 : ¬ getD v a 0 ≤ 0 := by omega
      rw [if_neg n1, if_pos (by omega), if_neg (fun h => h2 h.2.1)]
  · rw [if_pos (by omega), if_neg (fun h => h1 h.1)]

/-- lookups never change a count -/
theorem getD_scoreCandidate (c : Cfg S) (words : Nat) (v : PyDict Str Nat) (a b : Str) (mid : List Str)
    (k : Str) : getD (scoreCandidate c words v a b mid).1 k 0 = getD v k 0 := by
  unfold scoreCandidate
  simp only
  repeat' split
  all_goals simp [getD_touch]

/-- a lookup of keys that are there changes nothing -/
theorem scoreCandidate_fst_of_mem (c : Cfg S) (words : Nat) {v : PyDict Str Nat} {a b : Str}
    {mid : List Str} (ha : a ∈ keys v) (hb : b ∈ keys v)
    (hp : joinWith c.delim ([a] ++ mid ++ [b]) ∈ keys v) :
    (scoreCandidate c words v a b mid).1 = v := by
  unfold scoreCandidate
  simp only
  repeat' split
  all_goals simp only [touch_mem ha, touch_mem hb, touch_mem hp]

/-! ### the invariant of the vocabulary -/

/-- first part of a key -/
def firstPart (d : Char) (k : Str) : Str := (splitOn d k).headD []
/-- last part of a key -/
def lastPart (d : Char) (k : Str) : Str := ((splitOn d k).getLast?).getD []
/-- the key contains the delimiter -/
def isPhrase (d : Char) (k : Str) : Prop := d ∈ k

instance (d : Char) (k : Str) : Decidable (isPhrase d k) := inferInstanceAs (Decidable (d ∈ k))

/-- every key with a delimiter has its first and last word as keys, counted at least as often -/
structure VInv (d : Char) (v : PyDict Str Nat) : Prop where
  wf : WF v
  mem : ∀ k ∈ keys v, isPhrase d k → firstPart d k ∈ keys v ∧ lastPart d k ∈ keys v
  le : ∀ k, isPhrase d k → getD v k 0 ≤ getD v (firstPart d k) 0 ∧ getD v k 0 ≤ getD v (lastPart d k) 0

theorem joinWith_splitOn (d : Char) (k : Str) : joinWith [d] (splitOn d k) = k := by
  induction k with
  | nil => rfl
  | cons x xs ih =>
    have hne := splitOn_ne_nil d xs
    rcases hs : splitOn d xs with _ | ⟨p, ps⟩
    · exact absurd hs hne
    · rw [hs] at ih
      by_cases e : x = d
      · subst e
        simp only [splitOn, if_true, hs, joinWith]
        rw [ih]; rfl
      · simp only [splitOn, if_neg e, hs]
        cases ps with
        | nil => simp only [joinWith] at ih ⊢; rw [ih]
        | cons q qs =>
          simp only [joinWith, List.cons_append] at ih ⊢
          rw [ih]

theorem not_mem_splitOn (d : Char) (k : Str) : ∀ p ∈ splitOn d k, d ∉ p := by
  induction k with
  | nil => simp [splitOn]
  | cons x xs ih =>
    have hne := splitOn_ne_nil d xs
    rcases hs : splitOn d xs with _ | ⟨p, ps⟩
    · exact absurd hs hne
    · rw [hs] at ih
      by_cases e : x = d
      · simp only [splitOn, if_pos e, hs]
        intro q hq
        rcases List.mem_cons.mp hq with rfl | hq
        · simp
        · exact ih q hq
      · simp only [splitOn, if_neg e, hs]
        intro q hq
        rcases List.mem_cons.mp hq with rfl | hq
        · have := ih p (by simp)
          intro hd
          rcases List.mem_cons.mp hd with hd | hd
          · exact e hd.symm
          · exact this hd
        · exact ih q (by simp [hq])

/-- a delimiter-free candidate is recovered by splitting its text -/
theorem split_text {d : Char} {a b : Str} {mid : List Str} (ha : d ∉ a) (hb : d ∉ b)
    (hm : ∀ m ∈ mid, d ∉ m) : splitOn d (joinWith [d] ([a] ++ mid ++ [b])) = [a] ++ mid ++ [b] := by
  apply splitOn_joinWith (by simp)
  intro p hp
  simp only [List.mem_append, List.mem_singleton] at hp
  rcases hp with (rfl | h) | rfl
  · exact ha
  · exact hm p h
  · exact hb

theorem first_text {d : Char} {a b : Str} {mid : List Str} (ha : d ∉ a) (hb : d ∉ b)
    (hm : ∀ m ∈ mid, d ∉ m) : firstPart d (joinWith [d] ([a] ++ mid ++ [b])) = a := by
  unfold firstPart; rw [split_text ha hb hm]; rfl

theorem last_text {d : Char} {a b : Str} {mid : List Str} (ha : d ∉ a) (hb : d ∉ b)
    (hm : ∀ m ∈ mid, d ∉ m) : lastPart d (joinWith [d] ([a] ++ mid ++ [b])) = b := by
  unfold lastPart; rw [split_text ha hb hm, List.getLast?_append]; rfl

theorem isPhrase_text (d : Char) (a b : Str) (mid : List Str) :
    isPhrase d (joinWith [d] ([a] ++ mid ++ [b])) := by
  unfold isPhrase
  cases mid with
  | nil => simp [joinWith]
  | cons m ms => simp [joinWith]

theorem firstPart_free (d : Char) (k : Str) : ¬ isPhrase d (firstPart d k) := by
  unfold isPhrase firstPart
  rcases hs : splitOn d k with _ | ⟨p, ps⟩
  · exact absurd hs (splitOn_ne_nil d k)
  · have := not_mem_splitOn d k p (by rw [hs]; simp)
    simpa using this

theorem lastPart_free (d : Char) (k : Str) : ¬ isPhrase d (lastPart d k) := by
  unfold isPhrase lastPart
  cases hg : (splitOn d k).getLast? with
  | none => simp
  | some p =>
    have := not_mem_splitOn d k p (List.mem_of_getLast? hg)
    simpa using this

/-- the candidates of a sentence start with its non-connectors, all but the last, in order -/
theorem candidates_first (conn sent : List Str) :
    ((candidatesOf conn sent).map (fun t => t.1)) = (sent.filter (fun w => decide (w ∉ conn))).dropLast ∧
    ((candidatesOf conn sent).map (fun t => t.2.2)) = (sent.filter (fun w => decide (w ∉ conn))).tail ∧
    ∀ t ∈ candidatesOf conn sent, (∀ m ∈ t.2.1, m ∈ sent) := by
  have key : ∀ n, ∀ sent : List Str, sent.length ≤ n →
      ((candidatesOf conn sent).map (fun t => t.1)) = (sent.filter (fun w => decide (w ∉ conn))).dropLast ∧
      ((candidatesOf conn sent).map (fun t => t.2.2)) = (sent.filter (fun w => decide (w ∉ conn))).tail ∧
      ∀ t ∈ candidatesOf conn sent, (∀ m ∈ t.2.1, m ∈ sent) := by
    intro n
    induction n with
    | zero =>
      intro sent h
      have : sent = [] := List.eq_nil_of_length_eq_zero (by omega)
      subst this
      simp [candidatesOf_nil]
    | succ n ih =>
      intro sent h
      cases sent with
      | nil => simp [candidatesOf_nil]
      | cons a rest =>
        have hr : rest.length ≤ n := by simp at h; omega
        by_cases ha : a ∈ conn
        · obtain ⟨i1, i2, i3⟩ := ih rest hr
          rw [candidatesOf_conn ha]
          refine ⟨by simpa [ha] using i1, by simpa [ha] using i2, fun t ht m hm => by simp [i3 t ht m hm]⟩
        · have hsplit : rest = rest.takeWhile (fun w => decide (w ∈ conn)) ++
              rest.dropWhile (fun w => decide (w ∈ conn)) := (List.takeWhile_append_dropWhile).symm
          have hm : ∀ m ∈ rest.takeWhile (fun w => decide (w ∈ conn)), m ∈ conn := by
            intro m hm
            have := (List.all_eq_true.mp (List.all_takeWhile (l := rest)
              (p := fun w => decide (w ∈ conn)))) m hm
            simpa using this
          generalize hmid : rest.takeWhile (fun w => decide (w ∈ conn)) = mid at hsplit hm
          cases hd : rest.dropWhile (fun w => decide (w ∈ conn)) with
          | nil =>
            rw [hd, List.append_nil] at hsplit
            subst hsplit
            rw [candidatesOf_end ha hm]
            have := filter_conn hm []
            simp only [List.append_nil, List.filter_nil] at this
            simp only [List.filter_cons, ha, not_false_eq_true, decide_true, if_true, this]
            simp
          | cons b post =>
            rw [hd] at hsplit
            have hb : b ∉ conn := by
              have := List.head_dropWhile_not (fun w => decide (w ∈ conn)) (l := rest) (by rw [hd]; simp)
              simp only [hd, List.head_cons, decide_eq_false_iff_not] at this
              exact this
            have hl : (b :: post).length ≤ n := by
              have := congrArg List.length hsplit
              rw [List.length_append] at this
              omega
            obtain ⟨i1, i2, i3⟩ := ih (b :: post) hl
            rw [hsplit]
            have e1 : (a :: (mid ++ b :: post)).filter (fun w => decide (w ∉ conn)) =
                a :: b :: post.filter (fun w => decide (w ∉ conn)) := by
              rw [List.filter_cons, filter_conn hm, List.filter_cons]
              simp [ha, hb]
            have e2 : (b :: post).filter (fun w => decide (w ∉ conn)) =
                b :: post.filter (fun w => decide (w ∉ conn)) := by simp [hb]
            rw [e2] at i1 i2
            have := candidatesOf_word ha hm hb post
            rw [List.cons_append] at this
            rw [e1, this]
            refine ⟨?_, ?_, ?_⟩
            · simp only [List.map_cons, i1]; rfl
            · simp only [List.map_cons, i2]; rfl
            · intro t ht m hm'
              rcases List.mem_cons.mp ht with rfl | ht
              · simp only at hm'; simp [hm']
              · have := i3 t ht m hm'
                simp only [List.mem_cons, List.mem_append] at this ⊢
                tauto
  exact key _ sent le_rfl

theorem candidates_free {conn sent : List Str} {d : Char} (hs : ∀ w ∈ sent, d ∉ w) :
    ∀ t ∈ candidatesOf conn sent, d ∉ t.1 ∧ d ∉ t.2.2 ∧ ∀ m ∈ t.2.1, d ∉ m := by
  obtain ⟨h1, h2, h3⟩ := candidates_first conn sent
  intro t ht
  refine ⟨?_, ?_, fun m hm => hs m (h3 t ht m hm)⟩
  · have : t.1 ∈ (candidatesOf conn sent).map (fun t => t.1) := List.mem_map.mpr ⟨t, ht, rfl⟩
    rw [h1] at this
    exact hs _ (List.mem_of_mem_filter (List.mem_of_mem_dropLast this))
  · have : t.2.2 ∈ (candidatesOf conn sent).map (fun t => t.2.2) := List.mem_map.mpr ⟨t, ht, rfl⟩
    rw [h2] at this
    exact hs _ (List.mem_of_mem_filter (List.mem_of_mem_tail this))

theorem occurs_sublist {τ : Type} [DecidableEq τ] {a b : List τ} (h : a.Sublist b) (w : τ) :
    occurs a w ≤ occurs b w := List.Sublist.count_le w h

theorem occurs_map_le {α τ υ : Type} [DecidableEq τ] [DecidableEq υ] (l : List α) (f : α → τ)
    (g : α → υ) (k : τ) (a : υ) (h : ∀ x ∈ l, f x = k → g x = a) :
    occurs (l.map f) k ≤ occurs (l.map g) a := by
  induction l with
  | nil => simp
  | cons x xs ih =>
    have := ih (fun y hy => h y (by simp [hy]))
    have hx := h x (by simp)
    simp only [occurs, List.map_cons, List.count_cons, beq_iff_eq] at this ⊢
    by_cases e : f x = k
    · rw [if_pos e, if_pos (hx e)]; omega
    · rw [if_neg e]; omega

/-- counting a delimiter-free sentence: a phrase is counted at most as often as its ends -/
theorem counted_le {conn sent : List Str} {d : Char} (hs : ∀ w ∈ sent, d ∉ w) (k : Str)
    (hk : isPhrase d k) :
    occurs (counted conn [d] sent) k ≤ occurs (counted conn [d] sent) (firstPart d k) ∧
    occurs (counted conn [d] sent) k ≤ occurs (counted conn [d] sent) (lastPart d k) := by
  obtain ⟨h1, h2, _⟩ := candidates_first conn sent
  have hfree := candidates_free (conn := conn) hs
  have h0 : occurs (sent.filter (fun w => decide (w ∉ conn))) k = 0 := by
    by_contra hn
    have := occurs_pos.mp (Nat.pos_of_ne_zero hn)
    exact hs k (List.mem_of_mem_filter this) hk
  simp only [counted, occurs_append, h0, Nat.zero_add]
  constructor
  · have := occurs_map_le (candidatesOf conn sent) (textOf [d]) (fun t => t.1) k (firstPart d k) (by
      rintro t ht rfl
      obtain ⟨f1, f2, f3⟩ := hfree t ht
      exact (first_text f1 f2 f3).symm)
    rw [h1] at this
    have h4 := occurs_sublist (List.dropLast_sublist (sent.filter (fun w => decide (w ∉ conn)))) (firstPart d k)
    omega
  · have := occurs_map_le (candidatesOf conn sent) (textOf [d]) (fun t => t.2.2) k (lastPart d k) (by
      rintro t ht rfl
      obtain ⟨f1, f2, f3⟩ := hfree t ht
      exact (last_text f1 f2 f3).symm)
    rw [h2] at this
    have h4 := occurs_sublist (List.tail_sublist (sent.filter (fun w => decide (w ∉ conn)))) (lastPart d k)
    omega

theorem vinv_countWords {d : Char} {v : PyDict Str Nat} (h : VInv d v) {conn sent es : List Str}
    (hs : ∀ w ∈ sent, d ∉ w) (he : es.Perm (counted conn [d] sent)) : VInv d (countWords v es) := by
  refine ⟨WF_countWords h.wf es, ?_, ?_⟩
  · intro k hk hp
    rw [mem_keys_countWords] at hk
    rw [mem_keys_countWords, mem_keys_countWords]
    rcases hk with hk | hk
    · exact ⟨Or.inl (h.mem k hk hp).1, Or.inl (h.mem k hk hp).2⟩
    · rw [he.mem_iff] at hk
      obtain ⟨l1, l2⟩ := counted_le (conn := conn) hs k hp
      have := occurs_pos.mpr hk
      exact ⟨Or.inr (he.mem_iff.mpr (occurs_pos.mp (by omega))),
        Or.inr (he.mem_iff.mpr (occurs_pos.mp (by omega)))⟩
  · intro k hp
    obtain ⟨l1, l2⟩ := counted_le (conn := conn) hs k hp
    obtain ⟨m1, m2⟩ := h.le k hp
    simp only [getD_countWords', occurs_perm he]
    omega

theorem vinv_prune {d : Char} {v : PyDict Str Nat} (h : VInv d v) {m : Nat} (hm : 1 ≤ m) :
    VInv d (pruneVocab none m v).1 := by
  have e : ∀ k, getD (pruneVocab none m v).1 k 0 = if m ≤ getD v k 0 then getD v k 0 else 0 := by
    intro k
    rw [(C14_prune_exact none m v h.wf).1, getD_filter h.wf]
    simp only [keepItem, ge_iff_le, decide_eq_true_eq]
    by_cases hk : k ∈ keys v
    · simp [hk]
    · rw [getD_of_not_mem hk]; simp
  have hmem : ∀ k, k ∈ keys (pruneVocab none m v).1 ↔ m ≤ getD v k 0 := by
    intro k
    constructor
    · intro hk
      obtain ⟨c, hc⟩ := Option.isSome_iff_exists.mp ((get?_isSome_iff _ _).mpr hk)
      have := ((C14_prune_members none m v h.wf).2.1 k c).mp hc
      rcases this.2 with h1 | ⟨r, h1, _⟩
      · simp [getD, this.1, h1.2]
      · cases h1
    · intro hk
      apply mem_of_getD_pos
      rw [e, if_pos hk]; omega
  refine ⟨WF_prune m h.wf, ?_, ?_⟩
  · intro k hk hp
    rw [hmem] at hk ⊢
    rw [hmem]
    have := h.le k hp
    omega
  · intro k hp
    have := h.le k hp
    rw [e, e, e]
    split <;> split <;> split <;> omega

theorem vinv_nil (d : Char) : VInv d [] := ⟨WF_nil, by simp, by simp [getD]⟩

theorem getD_accum' {v w : PyDict Str Nat} (hw : WF w) (k : Str) :
    getD (accum v w) k 0 = getD v k 0 + getD w k 0 := by
  have e : mergeCounts v w = accum v w := by
    unfold mergeCounts accum
    congr 1
    funext d p
    by_cases hc : contains d p.1 = true
    · rw [if_pos hc]
    · rw [if_neg hc, getD_of_not_mem (fun hh => hc ((contains_iff _ _).mpr hh))]; simp
  rw [← e, C14_merge_counts _ _ hw]

theorem vinv_accum {d : Char} {v w : PyDict Str Nat} (hv : VInv d v) (hw : VInv d w) :
    VInv d (accum v w) := by
  refine ⟨WF_accum hv.wf w, ?_, ?_⟩
  · intro k hk hp
    rw [mem_keys_accum] at hk
    rw [mem_keys_accum, mem_keys_accum]
    rcases hk with hk | hk
    · exact ⟨Or.inl (hv.mem k hk hp).1, Or.inl (hv.mem k hk hp).2⟩
    · exact ⟨Or.inr (hw.mem k hk hp).1, Or.inr (hw.mem k hk hp).2⟩
  · intro k hp
    rw [getD_accum' hw.wf, getD_accum' hw.wf, getD_accum' hw.wf]
    have := hv.le k hp; have := hw.le k hp
    omega

theorem vinv_learn (c : Cfg S) {d : Char} (hd : c.delim = [d]) (sents : List (List Str))
    (hs : ∀ s ∈ sents, ∀ w ∈ s, d ∉ w) :
    VInv d (learnVocab c sents).vocab ∧ 1 ≤ (learnVocab c sents).minReduce := by
  have : ∀ (todo : List (List Str)) (s : Ph), (∀ x ∈ todo, ∀ w ∈ x, d ∉ w) → VInv d s.vocab →
      1 ≤ s.minReduce → VInv d (todo.foldl (learnSentence c) s).vocab ∧
        1 ≤ (todo.foldl (learnSentence c) s).minReduce := by
    intro todo
    induction todo with
    | nil => intro s _ h h1; exact ⟨h, h1⟩
    | cons x todo ih =>
      intro s hx h h1
      obtain ⟨es, r, h1', h2, h3, h4⟩ := learn_sentence c s.vocab s.corpusWords x
      rw [hd] at h4
      have hv := vinv_countWords h (hx x (by simp)) h4
      rw [← h2] at hv
      refine ih _ (fun y hy => hx y (by simp [hy])) ?_ ?_
      · unfold learnSentence
        simp only [h1']
        split
        · exact vinv_prune hv h1
        · exact hv
      · unfold learnSentence
        simp only [h1']
        split
        · simp only; omega
        · exact h1
  exact this sents Ph.empty hs (vinv_nil d) le_rfl

theorem vinv_add (c : Cfg S) {d : Char} (hd : c.delim = [d]) {s : Ph} (h : VInv d s.vocab)
    (h1 : 1 ≤ s.minReduce) (batch : List (List Str)) (hs : ∀ x ∈ batch, ∀ w ∈ x, d ∉ w) :
    VInv d (addVocab c s batch).vocab ∧ 1 ≤ (addVocab c s batch).minReduce := by
  obtain ⟨n1, n2⟩ := vinv_learn c hd batch hs
  unfold addVocab
  simp only
  split
  · exact ⟨n1, h1⟩
  · split
    · exact ⟨vinv_prune (vinv_accum h n1) (by omega), by simp only; omega⟩
    · exact ⟨vinv_accum h n1, by simp only; omega⟩

theorem vinv_touch {d : Char} {v : PyDict Str Nat} (h : VInv d v) {k : Str}
    (hk : isPhrase d k → firstPart d k ∈ keys v ∧ lastPart d k ∈ keys v) : VInv d (touch v k) := by
  by_cases hm : k ∈ keys v
  · rw [touch_mem hm]; exact h
  · have e : touch v k = set v k 0 := by
      unfold touch; rw [if_neg (fun hh => hm ((contains_iff _ _).mp hh))]
    refine ⟨by rw [e]; exact WF_set h.wf _ _, ?_, ?_⟩
    · intro x hx hp
      rw [e, mem_keys_set] at hx
      rw [e, mem_keys_set, mem_keys_set]
      rcases hx with rfl | hx
      · exact ⟨Or.inr (hk hp).1, Or.inr (hk hp).2⟩
      · exact ⟨Or.inr (h.mem x hx hp).1, Or.inr (h.mem x hx hp).2⟩
    · intro x hp
      simp only [getD_touch]
      exact h.le x hp

theorem vinv_scoreCandidate (c : Cfg S) {d : Char} (hd : c.delim = [d]) (words : Nat)
    {v : PyDict Str Nat} (h : VInv d v) {a b : Str} {mid : List Str} (ha : d ∉ a) (hb : d ∉ b)
    (hm : ∀ m ∈ mid, d ∉ m) : VInv d (scoreCandidate c words v a b mid).1 := by
  have h1 := vinv_touch h (k := a) (fun hp => absurd hp ha)
  have h2 := vinv_touch h1 (k := b) (fun hp => absurd hp hb)
  unfold scoreCandidate
  simp only [getD_touch]
  split
  · exact h1
  · next n1 =>
    split
    · exact h2
    · next n2 =>
      have ma : a ∈ keys v := mem_of_getD_pos (by omega)
      have mb : b ∈ keys v := mem_of_getD_pos (by omega)
      have h3 : VInv d (touch (touch (touch v a) b) (joinWith c.delim ([a] ++ mid ++ [b]))) := by
        apply vinv_touch h2
        intro _
        rw [hd, first_text ha hb hm, last_text ha hb hm, touch_mem ma, touch_mem mb]
        exact ⟨ma, mb⟩
      split
      · exact h3
      · split
        · exact h3
        · exact h3

/-- the live model over a delimiter-free sentence keeps the invariant and all counts -/
theorem transform_keeps (c : Cfg S) {d : Char} (hd : c.delim = [d]) {s : Ph} (h : VInv d s.vocab)
    (sent : List Str) (hs : ∀ w ∈ sent, w ≠ [] ∧ d ∉ w) :
    VInv d (transform c s sent).1.vocab ∧
    (∀ k, getD (transform c s sent).1.vocab k 0 = getD s.vocab k 0) := by
  have := (analyze_sim (S := S) (fun v v' => v = v' ∧ VInv d v ∧ ∀ k, getD v k 0 = getD s.vocab k 0)
    c.connectors (scoreCandidate c s.corpusWords) (scoreCandidate c s.corpusWords)
    (fun t => d ∉ t.1 ∧ d ∉ t.2.2 ∧ ∀ m ∈ t.2.1, d ∉ m) (by
      rintro t ⟨f1, f2, f3⟩ v _ ⟨rfl, hv, hg⟩
      exact ⟨rfl, rfl, vinv_scoreCandidate c hd _ hv f1 f2 f3,
        fun k => by rw [getD_scoreCandidate]; exact hg k⟩) sent).1 s.vocab s.vocab []
    ⟨rfl, h, fun _ => rfl⟩ (candidates_free (fun w hw => (hs w hw).2)) (fun w hw => (hs w hw).1)
  exact this.1.2

/-- Every state of a model used with delimiter-free, non-empty tokens: any sequence of `add_vocab`
calls and transformed sentences. -/
inductive Reach (c : Cfg S) (d : Char) : Ph → Prop
  | empty : Reach c d Ph.empty
  | add {s} (batch : List (List Str)) : (∀ x ∈ batch, ∀ w ∈ x, w ≠ [] ∧ d ∉ w) → Reach c d s →
      Reach c d (addVocab c s batch)
  | transform {s} (sent : List Str) : (∀ w ∈ sent, w ≠ [] ∧ d ∉ w) → Reach c d s →
      Reach c d (transform c s sent).1

theorem Reach.inv {c : Cfg S} {d : Char} (hd : c.delim = [d]) {s : Ph} (h : Reach c d s) :
    VInv d s.vocab ∧ 1 ≤ s.minReduce := by
  induction h with
  | empty => exact ⟨vinv_nil d, le_rfl⟩
  | add batch hb _ ih => exact vinv_add c hd ih.1 ih.2 batch (fun x hx w hw => (hb x hx w hw).2)
  | transform sent hs _ ih => exact ⟨(transform_keeps c hd ih.1 sent hs).1, ih.2⟩

/-! ### freezing -/

theorem parts_of_phrase {d : Char} {k : Str} (hk : isPhrase d k) :
    ∃ mid, splitOn d k = [firstPart d k] ++ mid ++ [lastPart d k] := by
  rcases hs : splitOn d k with _ | ⟨p, ps⟩
  · exact absurd hs (splitOn_ne_nil d k)
  · have hj := joinWith_splitOn d k
    rw [hs] at hj
    have hne : ps ≠ [] := by
      rintro rfl
      simp only [joinWith] at hj
      have := not_mem_splitOn d k p (by rw [hs]; simp)
      exact this (hj ▸ hk)
    refine ⟨ps.dropLast, ?_⟩
    have h1 : firstPart d k = p := by unfold firstPart; rw [hs]; rfl
    have h2 : lastPart d k = ps.getLast hne := by
      unfold lastPart; rw [hs, List.getLast?_cons, List.getLast?_eq_some_getLast hne]; rfl
    rw [h1, h2, List.append_assoc, List.dropLast_append_getLast hne]
    rfl

theorem not_phrase_split {d : Char} {k : Str} (hk : ¬ isPhrase d k) : splitOn d k = [k] :=
  splitOn_no_sep hk

theorem exportLoop_spec (c : Cfg S) {d : Char} (hd : c.delim = [d]) (words : Nat)
    {v : PyDict Str Nat} (h : VInv d v) (ks : List Str) (hk : ∀ k ∈ ks, k ∈ keys v)
    (r : PyDict Str S) :
    ∃ r', exportLoop c d words ks v r = some r' ∧
      ∀ k, get? r' k = if k ∈ ks ∧ isPhrase d k ∧
          ((scoreCandidate c words v (firstPart d k) (lastPart d k) ((splitOn d k).tail.dropLast)).2).isSome
        then (scoreCandidate c words v (firstPart d k) (lastPart d k) ((splitOn d k).tail.dropLast)).2.map Prod.snd
        else get? r k := by
  induction ks generalizing r with
  | nil => exact ⟨r, rfl, by simp⟩
  | cons k ks ih =>
    have hk' : ∀ x ∈ ks, x ∈ keys v := fun x hx => hk x (by simp [hx])
    by_cases hp : isPhrase d k
    · obtain ⟨mid, hm⟩ := parts_of_phrase hp
      have hmid : (splitOn d k).tail.dropLast = mid := by rw [hm]; simp
      have hjoin : joinWith c.delim ([firstPart d k] ++ mid ++ [lastPart d k]) = k := by
        rw [hd, ← hm]; exact joinWith_splitOn d k
      obtain ⟨m1, m2⟩ := h.mem k (hk k (by simp)) hp
      have hfst : (scoreCandidate c words v (firstPart d k) (lastPart d k) mid).1 = v :=
        scoreCandidate_fst_of_mem c words m1 m2 (by rw [hjoin]; exact hk k (by simp))
      have hun : exportLoop c d words (k :: ks) v r =
          match (scoreCandidate c words v (firstPart d k) (lastPart d k) mid).2 with
          | some (p, s) => exportLoop c d words ks v (set r p s)
          | none => exportLoop c d words ks v r := by
        have hm' : splitOn d k = firstPart d k :: (mid ++ [lastPart d k]) := by rw [hm]; simp
        rw [exportLoop]
        unfold unigramsOf
        rw [hm']
        simp only [List.getLast?_append, List.getLast?_singleton, Option.some_or, List.dropLast_concat,
          hfst, ne_eq, not_true_eq_false, if_false]
        rfl
      rw [hun]
      cases hsc : (scoreCandidate c words v (firstPart d k) (lastPart d k) mid).2 with
      | none =>
        obtain ⟨r', e, hr⟩ := ih hk' r
        refine ⟨r', e, fun x => ?_⟩
        rw [hr x]
        by_cases hx : x = k
        · subst hx
          rw [hmid, hsc]; simp
        · simp [hx]
      | some ps =>
        obtain ⟨p, s⟩ := ps
        have hpk : p = k := by
          have := scoreCandidate_phrase c words v _ _ _ p s hsc
          rw [this, hjoin]
        subst hpk
        obtain ⟨r', e, hr⟩ := ih hk' (set r p s)
        refine ⟨r', e, fun x => ?_⟩
        rw [hr x]
        by_cases hx : x = p
        · subst hx
          rw [hmid, hsc]; simp [hp]
        · rw [get?_set_ne _ (fun e => hx e.symm)]
          simp [hx]
    · have hun : exportLoop c d words (k :: ks) v r = exportLoop c d words ks v r := by
        rw [exportLoop]; unfold unigramsOf
        rw [not_phrase_split hp]
        simp
      rw [hun]
      obtain ⟨r', e, hr⟩ := ih hk' r
      refine ⟨r', e, fun x => ?_⟩
      rw [hr x]
      by_cases hx : x = k
      · subst hx; simp [hp]
      · simp [hx]

/-- **C13.** For a model used with tokens that are not empty and do not contain the delimiter,
freezing succeeds, and on every candidate made of such tokens — seen in training or not — the frozen
model decides and scores exactly as the live model does at that moment. -/
theorem C13_frozen_decides_as_live (c : Cfg S) {d : Char} (hd : c.delim = [d]) {s : Ph}
    (h : Reach c d s) :
    ∃ grams, exportPhrases c d s = some grams ∧
      ∀ a b mid, d ∉ a → d ∉ b → (∀ m ∈ mid, d ∉ m) →
        (frozenCandidate c grams () a b mid).2 = (scoreCandidate c s.corpusWords s.vocab a b mid).2 := by
  obtain ⟨grams, e, hg⟩ := exportLoop_spec c hd s.corpusWords (h.inv hd).1 (keys s.vocab)
    (fun k hk => hk) []
  refine ⟨grams, e, fun a b mid ha hb hm => ?_⟩
  have hg' := hg (joinWith [d] ([a] ++ mid ++ [b]))
  rw [first_text ha hb hm, last_text ha hb hm, split_text ha hb hm] at hg'
  have hmid : ([a] ++ mid ++ [b]).tail.dropLast = mid := by simp
  rw [hmid] at hg'
  have hsnd := scoreCandidate_snd c s.corpusWords s.vocab a b mid
  simp only [hd] at hsnd
  unfold frozenCandidate
  simp only [hd]
  by_cases hp : 0 < getD s.vocab a 0 ∧ 0 < getD s.vocab b 0 ∧
      0 < getD s.vocab (joinWith [d] ([a] ++ mid ++ [b])) 0 ∧
      c.threshold < c.scoring (getD s.vocab a 0) (getD s.vocab b 0)
        (getD s.vocab (joinWith [d] ([a] ++ mid ++ [b])) 0) s.vocab.length c.minCount s.corpusWords
  · rw [if_pos hp] at hsnd
    rw [hsnd] at hg'
    simp only [mem_of_getD_pos hp.2.2.1, isPhrase_text, Option.isSome_some, and_self, if_true,
      Option.map_some] at hg'
    rw [hg', hsnd]
    simp only [hp.2.2.2, if_true]
  · rw [if_neg hp] at hsnd
    rw [hsnd] at hg'
    simp at hg'
    rw [hsnd]
    have : get? grams (joinWith [d] ([a] ++ mid ++ [b])) = none := by simpa using hg'
    rw [this]

/-- **C13.** On a sentence all of whose words and candidates the model has counted (for instance any
training sentence, when nothing was pruned), the live model is left unchanged and the frozen model
gives the same tokens. -/
theorem C13_frozen_same_on_known (c : Cfg S) {d : Char} (hd : c.delim = [d]) {s : Ph}
    (h : Reach c d s) (sent : List Str) (hs : ∀ w ∈ sent, w ≠ [] ∧ d ∉ w)
    (hk : ∀ k ∈ counted c.connectors c.delim sent, k ∈ keys s.vocab) :
    ∃ grams, exportPhrases c d s = some grams ∧
      (transform c s sent).1 = s ∧ frozenTransform c grams sent = (transform c s sent).2 := by
  obtain ⟨grams, e, hg⟩ := C13_frozen_decides_as_live c hd h
  have hfree := candidates_free (conn := c.connectors) (fun w hw => (hs w hw).2)
  obtain ⟨h1, h2, _⟩ := candidates_first c.connectors sent
  have hsub : ∀ w ∈ sent.filter (fun w => decide (w ∉ c.connectors)), w ∈ keys s.vocab :=
    fun w hw => hk w (by unfold counted; exact List.mem_append_left _ hw)
  have := (analyze_sim (S := S) (fun v (_ : Unit) => v = s.vocab)
    c.connectors (scoreCandidate c s.corpusWords) (frozenCandidate c grams)
    (fun t => t ∈ candidatesOf c.connectors sent) (by
      rintro t ht v u rfl
      obtain ⟨f1, f2, f3⟩ := hfree t ht
      refine ⟨(hg _ _ _ f1 f2 f3).symm, ?_⟩
      apply scoreCandidate_fst_of_mem
      · apply hsub
        have : t.1 ∈ (candidatesOf c.connectors sent).map (fun t => t.1) := List.mem_map.mpr ⟨t, ht, rfl⟩
        rw [h1] at this
        exact List.mem_of_mem_dropLast this
      · apply hsub
        have : t.2.2 ∈ (candidatesOf c.connectors sent).map (fun t => t.2.2) := List.mem_map.mpr ⟨t, ht, rfl⟩
        rw [h2] at this
        exact List.mem_of_mem_tail this
      · apply hk
        unfold counted
        exact List.mem_append_right _ (List.mem_map.mpr ⟨t, ht, rfl⟩)) sent).1 s.vocab () [] rfl
    (fun t ht => ht) (fun w hw => (hs w hw).1)
  refine ⟨grams, e, ?_, ?_⟩
  · show { s with vocab := _ } = s
    unfold analyzeSentence
    rw [this.1]
  · unfold frozenTransform transform analyzeSentence
    simp only
    rw [this.2]

/-- **C13.** If the scoring does not look at the vocabulary size (as the NPMI scoring), the frozen
model gives the same tokens as the live model on every delimiter-free sentence, also after the live
model has been applied to any other sentences. -/
theorem C13_frozen_same (c : Cfg S) {d : Char} (hd : c.delim = [d])
    (hlen : ∀ a b n l l' m t, c.scoring a b n l m t = c.scoring a b n l' m t) {s : Ph}
    (h : Reach c d s) (history : List (List Str)) (hh : ∀ x ∈ history, ∀ w ∈ x, w ≠ [] ∧ d ∉ w)
    (sent : List Str) (hs : ∀ w ∈ sent, w ≠ [] ∧ d ∉ w) :
    ∃ grams, exportPhrases c d s = some grams ∧
      frozenTransform c grams sent =
        (transform c (history.foldl (fun s x => (transform c s x).1) s) sent).2 := by
  obtain ⟨grams, e, hg⟩ := C13_frozen_decides_as_live c hd h
  refine ⟨grams, e, ?_⟩
  have hist : ∀ (xs : List (List Str)) (t : Ph), (∀ x ∈ xs, ∀ w ∈ x, w ≠ [] ∧ d ∉ w) →
      VInv d t.vocab → t.corpusWords = s.corpusWords → (∀ k, getD t.vocab k 0 = getD s.vocab k 0) →
      (xs.foldl (fun s x => (transform c s x).1) t).corpusWords = s.corpusWords ∧
      ∀ k, getD (xs.foldl (fun s x => (transform c s x).1) t).vocab k 0 = getD s.vocab k 0 := by
    intro xs
    induction xs with
    | nil => intro t _ _ hw hk; exact ⟨hw, hk⟩
    | cons x xs ih =>
      intro t hx hv hw hk
      have := transform_keeps c hd hv x (hx x (by simp))
      exact ih _ (fun y hy => hx y (by simp [hy])) this.1 hw (fun k => by rw [this.2 k, hk k])
  obtain ⟨hw, hk⟩ := hist history s hh (h.inv hd).1 rfl (fun _ => rfl)
  generalize history.foldl (fun s x => (transform c s x).1) s = t at hw hk
  have := (analyze_sim (S := S) (fun v (_ : Unit) => ∀ k, getD v k 0 = getD s.vocab k 0)
    c.connectors (scoreCandidate c t.corpusWords) (frozenCandidate c grams)
    (fun t => t ∈ candidatesOf c.connectors sent) (by
      rintro q hq v u hv
      obtain ⟨f1, f2, f3⟩ := candidates_free (conn := c.connectors) (fun w hw => (hs w hw).2) q hq
      refine ⟨?_, fun k => by rw [getD_scoreCandidate]; exact hv k⟩
      have hu := hg _ _ _ f1 f2 f3
      rw [show u = () from rfl, hu, scoreCandidate_snd, scoreCandidate_snd]
      simp only [hv, hw]
      rw [hlen _ _ _ v.length s.vocab.length]) sent).1 t.vocab () [] hk
    (fun t ht => ht) (fun w hw => (hs w hw).1)
  unfold frozenTransform transform analyzeSentence
  simp only
  rw [this.2]

/-! ### where it fails -/

/-- models phrases.py:89-121, `original_scorer`, exact rationals; the division by zero branch is not
reached from `score_candidate` -/
def originalScorer (worda wordb bigram lenVocab minCount _corpusWords : Nat) : ℚ :=
  ((bigram : ℚ) - minCount) / (worda * wordb) * lenVocab

/-- default scoring, `min_count=1`, `threshold=1` -/
def defaultCfg : Cfg ℚ := ⟨[], ['_'], originalScorer, 1, 1, 1000⟩

/-- trained on `a b` twice and `c` once: 4 entries -/
def tinyPh : Ph := addVocab defaultCfg Ph.empty [[['a'], ['b']], [['a'], ['b']], [['c']]]

/-- **C13, default scoring.** The live model's answer depends on what it was applied to before:
looking up an unknown word inserts it, the vocabulary grows, and all scores rise with it.  So a
frozen model does not decide like the live model later on. -/
theorem C13_live_depends_on_history :
    Reach defaultCfg '_' tinyPh ∧
    (transform defaultCfg tinyPh [['a'], ['b']]).2 = [['a'], ['b']] ∧
    (exportPhrases defaultCfg '_' tinyPh).map (fun g => frozenTransform defaultCfg g [['a'], ['b']]) =
      some [['a'], ['b']] ∧
    (transform defaultCfg (transform defaultCfg tinyPh [['x'], ['y']]).1 [['a'], ['b']]).2 =
      [['a', '_', 'b']] :=
  ⟨.add _ (by decide) .empty, by decide +kernel, by decide +kernel, by decide +kernel⟩

/-- **C13.** Without the hypothesis on the tokens, freezing can raise: a training token that contains
the delimiter is split, its unknown parts are looked up, and the dictionary changes size while it is
iterated. -/
theorem C13_export_raises :
    exportPhrases defaultCfg '_' (addVocab defaultCfg Ph.empty [["new_york".toList, "city".toList]]) =
      none := by decide +kernel

example : Reach demoCfg '_' demoPh ∧ demoCfg.delim = ['_'] ∧
    (exportPhrases demoCfg '_' demoPh).map (fun g =>
      frozenTransform demoCfg g (["of", "bank", "of", "town", "is"].map String.toList)) =
      some (["of", "bank_of_town", "is"].map String.toList) :=
  ⟨.add _ (by decide) .empty, rfl, by decide⟩

end Verif.Phrases
