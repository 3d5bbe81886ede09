import Mathlib.Tactic.Common
import Verif.Phrases.FindModel
import Verif.Phrases.ScanProps

/-! Property C172: `find_phrases` returns exactly the phrases that detection joins. -/

namespace Verif.Phrases
open Verif PyDict Vocab Text

variable {S : Type} [LinearOrder S] {σ : Type}

/-! ### specification -/

/-- Spec of C172: what a frozen model says of `a mid b`: the score it has stored for the joined
words, if that is above its threshold -/
def storedScore (c : Cfg S) (grams : PyDict Str S) (a b : Str) (mid : List Str) : Option S :=
  (get? grams (joinWith c.delim ([a] ++ mid ++ [b]))).filter (fun s => decide (c.threshold < s))

/-- Spec of C172: the model after some sentences have been looked up in it, one by one -/
def after (c : Cfg S) (s : Ph) (sents : List (List Str)) : Ph :=
  sents.foldl (fun s sent => (transform c s sent).1) s

/-- Spec of C172: what a live model yields for a sentence -/
def yielded (c : Cfg S) (s : Ph) (sent : List Str) : List (Str × Option S) :=
  (analyzeSentence c.connectors (scoreCandidate c s.corpusWords) s.vocab sent).2

/-! ### proofs -/

/-- what a run of `keepPhrase` leaves under a key: the last score given for it -/
theorem keep_some (p : Str) (s : S) (l : List (Str × Option S)) (d : PyDict Str S)
    (h : get? (l.foldl keepPhrase d) p = some s) :
    (∃ a b, l = a ++ (p, some s) :: b ∧ ∀ t, (p, some t) ∉ b) ∨
      (get? d p = some s ∧ ∀ t, (p, some t) ∉ l) := by
  induction l generalizing d with
  | nil => exact Or.inr ⟨h, fun t ht => absurd ht List.not_mem_nil⟩
  | cons q l ih =>
    rw [List.foldl_cons] at h
    rcases ih _ h with ⟨a, b, hl, hb⟩ | ⟨hg, hl⟩
    · exact Or.inl ⟨q :: a, b, by rw [hl]; rfl, hb⟩
    · obtain ⟨k, o⟩ := q
      cases o with
      | none =>
        refine Or.inr ⟨hg, fun t ht => ?_⟩
        rcases List.mem_cons.mp ht with e | ht
        · cases e
        · exact hl t ht
      | some t =>
        simp only [keepPhrase] at hg
        rw [get?_set] at hg
        by_cases e : p = k
        · subst e
          simp only [if_true] at hg
          cases hg
          exact Or.inl ⟨[], l, rfl, hl⟩
        · have e' : ¬ k = p := fun h => e h.symm
          simp only [e, e', if_false] at hg
          refine Or.inr ⟨hg, fun u hu => ?_⟩
          rcases List.mem_cons.mp hu with x | hu
          · cases x; exact e rfl
          · exact hl u hu

theorem keep_mono (p : Str) (l : List (Str × Option S)) (d : PyDict Str S)
    (h : (get? d p).isSome) : (get? (l.foldl keepPhrase d) p).isSome := by
  induction l generalizing d with
  | nil => exact h
  | cons q l ih =>
    refine ih _ ?_
    obtain ⟨k, o⟩ := q
    cases o with
    | none => exact h
    | some t =>
      simp only [keepPhrase]
      rw [get?_set]
      split
      · rfl
      · exact h

theorem keep_mem (p : Str) (s : S) (l : List (Str × Option S)) (d : PyDict Str S)
    (h : (p, some s) ∈ l) : (get? (l.foldl keepPhrase d) p).isSome := by
  induction l generalizing d with
  | nil => exact absurd h List.not_mem_nil
  | cons q l ih =>
    rcases List.mem_cons.mp h with rfl | h
    · refine keep_mono p l _ ?_
      simp only [keepPhrase]
      rw [get?_set]
      simp
    · exact ih _ h

/-- all sentences: the dictionary is one run of `keepPhrase` over everything yielded -/
theorem find_fold (connectors : List Str) (sc : σ → Str → Str → List Str → σ × Option (Str × S))
    (sents : List (List Str)) (x : σ × PyDict Str S) :
    (sents.foldl (findSentence connectors sc) x).2 =
      ((sents.foldl (fun (y : σ × List (Str × Option S)) sent =>
        ((analyzeSentence connectors sc y.1 sent).1, y.2 ++ (analyzeSentence connectors sc y.1 sent).2))
        (x.1, [])).2).foldl keepPhrase x.2 := by
  have gen : ∀ (sents : List (List Str)) (x : σ × PyDict Str S) (out : List (Str × Option S))
      (d : PyDict Str S), x.2 = out.foldl keepPhrase d →
      (sents.foldl (findSentence connectors sc) x).2 =
      ((sents.foldl (fun (y : σ × List (Str × Option S)) sent =>
        ((analyzeSentence connectors sc y.1 sent).1, y.2 ++ (analyzeSentence connectors sc y.1 sent).2))
        (x.1, out)).2).foldl keepPhrase d := by
    intro sents
    induction sents with
    | nil => intro x out d h; exact h
    | cons t ts ih =>
      intro x out d h
      rw [List.foldl_cons, List.foldl_cons]
      exact ih _ _ d (by simp only [findSentence]; rw [h, List.foldl_append])
  exact gen sents x [] x.2 rfl

/-- the pairs yielded by a live model over several sentences -/
theorem live_yield (c : Cfg S) (s : Ph) (sents : List (List Str)) (out : List (Str × Option S)) :
    sents.foldl (fun (y : PyDict Str Nat × List (Str × Option S)) sent =>
        ((analyzeSentence c.connectors (scoreCandidate c s.corpusWords) y.1 sent).1,
          y.2 ++ (analyzeSentence c.connectors (scoreCandidate c s.corpusWords) y.1 sent).2))
        (s.vocab, out) =
      ((after c s sents).vocab, out ++ ((List.range sents.length).map
        (fun i : ℕ => yielded c (after c s (sents.take i)) (sents.getD i []))).flatten) := by
  induction sents generalizing s out with
  | nil => simp [after]
  | cons t ts ih =>
    rw [List.foldl_cons]
    have := ih (transform c s t).1 (out ++ yielded c s t)
    simp only [transform] at this
    simp only [yielded] at this ⊢
    rw [this]
    rw [List.length_cons, List.range_succ_eq_map]
    simp [after, transform, Function.comp_def]

theorem frozen_scan (c : Cfg S) (g : PyDict Str S) (sent : List Str) (hne : ∀ w ∈ sent, w ≠ []) :
    (analyzeSentence c.connectors (frozenCandidate c g) () sent).2 =
      (greedy c.connectors (storedScore c g) sent).map (fun p => (joinWith c.delim p.1, p.2)) := by
  rw [← C11_greedy_scan c.connectors c.delim (storedScore c g) sent hne]
  congr 2
  funext u a b mid
  simp only [frozenCandidate, storedScore]
  cases h : get? g (joinWith c.delim ([a] ++ mid ++ [b])) with
  | none => simp
  | some s => by_cases ht : c.threshold < s <;> simp [Option.filter, ht]

theorem frozen_yield (c : Cfg S) (g : PyDict Str S) (sents : List (List Str)) (u : Unit)
    (out : List (Str × Option S)) :
    (sents.foldl (fun (y : Unit × List (Str × Option S)) sent =>
        ((analyzeSentence c.connectors (frozenCandidate c g) y.1 sent).1,
          y.2 ++ (analyzeSentence c.connectors (frozenCandidate c g) y.1 sent).2)) (u, out)).2 =
      out ++ (sents.map (fun t => (analyzeSentence c.connectors (frozenCandidate c g) () t).2)).flatten := by
  induction sents generalizing u out with
  | nil => simp
  | cons t ts ih => rw [List.foldl_cons, ih]; simp

/-- whatever the scan marks as a phrase was scored by `f` -/
theorem greedy_scored (connectors : List Str) (f : Str → Str → List Str → Option S) (n : ℕ)
    (l : List Str) (hn : l.length ≤ n) (seg : List Str) (s : S)
    (h : (seg, some s) ∈ greedy connectors f l) :
    ∃ a mid b, seg = [a] ++ mid ++ [b] ∧ f a b mid = some s := by
  induction n generalizing l with
  | zero =>
    have : l = [] := List.length_eq_zero_iff.mp (by omega)
    rw [this, greedy_nil] at h
    exact absurd h List.not_mem_nil
  | succ n ih =>
    cases l with
    | nil => rw [greedy_nil] at h; exact absurd h List.not_mem_nil
    | cons a rest =>
      have hl : rest.length ≤ n := by simp at hn; omega
      have hdl := (List.dropWhile_sublist (l := rest) (fun w => decide (w ∈ connectors))).length_le
      rw [greedy] at h
      split at h
      · rcases List.mem_cons.mp h with e | h
        · cases e
        · exact ih rest hl h
      · dsimp only at h
        split at h
        · obtain ⟨w, _, e⟩ := List.mem_map.mp h
          cases e
        · rename_i b post hd
          rw [hd] at hdl
          simp only [List.length_cons] at hdl
          split at h
          · rename_i t ht
            rcases List.mem_cons.mp h with e | h
            · cases e
              exact ⟨a, _, b, rfl, ht⟩
            · exact ih post (by omega) h
          · rcases List.mem_append.mp h with h | h
            · obtain ⟨w, _, e⟩ := List.mem_map.mp h
              cases e
            · exact ih (b :: post) (by simp; omega) h

/-- **C172.** `frozen.find_phrases(sentences)` maps `p` to `s` exactly when the left-to-right scan of
one of the sentences joins words into `p`, with the score `s`. -/
theorem C172_frozen (c : Cfg S) (g : PyDict Str S) (sents : List (List Str))
    (hne : ∀ sent ∈ sents, ∀ w ∈ sent, w ≠ []) (p : Str) (s : S) :
    get? (frozenFind c g sents) p = some s ↔
      ∃ sent ∈ sents, ∃ seg, (seg, some s) ∈ greedy c.connectors (storedScore c g) sent ∧
        p = joinWith c.delim seg := by
  have hy : frozenFind c g sents =
      ((sents.map (fun t => (analyzeSentence c.connectors (frozenCandidate c g) () t).2)).flatten).foldl
        keepPhrase [] := by
    unfold frozenFind
    rw [find_fold, frozen_yield]
    rfl
  have mem : ∀ t : S, (p, some t) ∈
      (sents.map (fun t => (analyzeSentence c.connectors (frozenCandidate c g) () t).2)).flatten ↔
      ∃ sent ∈ sents, ∃ seg, (seg, some t) ∈ greedy c.connectors (storedScore c g) sent ∧
        p = joinWith c.delim seg := by
    intro t
    rw [List.mem_flatten]
    constructor
    · rintro ⟨l, hl, hp⟩
      obtain ⟨sent, hs, rfl⟩ := List.mem_map.mp hl
      rw [frozen_scan c g sent (hne sent hs)] at hp
      obtain ⟨⟨seg, o⟩, hq, e⟩ := List.mem_map.mp hp
      simp only [Prod.mk.injEq] at e
      exact ⟨sent, hs, seg, e.2 ▸ hq, e.1.symm⟩
    · rintro ⟨sent, hs, seg, hq, rfl⟩
      refine ⟨_, List.mem_map.mpr ⟨sent, hs, rfl⟩, ?_⟩
      rw [frozen_scan c g sent (hne sent hs)]
      exact List.mem_map.mpr ⟨_, hq, rfl⟩
  have stored : ∀ t : S, (∃ sent ∈ sents, ∃ seg,
      (seg, some t) ∈ greedy c.connectors (storedScore c g) sent ∧ p = joinWith c.delim seg) →
      get? g p = some t := by
    rintro t ⟨sent, hs, seg, hq, rfl⟩
    obtain ⟨a, mid, b, rfl, hf⟩ := greedy_scored _ _ _ sent (Nat.le_refl _) seg t hq
    unfold storedScore at hf
    exact (Option.filter_eq_some_iff.mp hf).1
  rw [hy]
  constructor
  · intro h
    rcases keep_some p s _ _ h with ⟨a, b, hl, _⟩ | ⟨hg, _⟩
    · exact (mem s).mp (by rw [hl]; simp)
    · cases hg
  · intro h
    obtain ⟨t, ht⟩ := Option.isSome_iff_exists.mp (keep_mem p s _ [] ((mem s).mpr h))
    rw [ht]
    rcases keep_some p t _ _ ht with ⟨a, b, hl, _⟩ | ⟨hg, _⟩
    · have h2 := stored t ((mem t).mp (by rw [hl]; simp))
      rw [stored s h] at h2
      exact h2.symm
    · cases hg

/-- **C172.** The scores returned by a frozen model are those it has stored, all above its threshold,
whatever else the sentences hold. -/
theorem C172_scores (c : Cfg S) (g : PyDict Str S) (sents : List (List Str))
    (hne : ∀ sent ∈ sents, ∀ w ∈ sent, w ≠ []) (p : Str) (s : S)
    (h : get? (frozenFind c g sents) p = some s) : get? g p = some s ∧ c.threshold < s := by
  obtain ⟨sent, hs, seg, hq, rfl⟩ := (C172_frozen c g sents hne p s).mp h
  obtain ⟨a, mid, b, rfl, hf⟩ := greedy_scored _ _ _ sent (Nat.le_refl _) seg s hq
  unfold storedScore at hf
  have := Option.filter_eq_some_iff.mp hf
  exact ⟨this.1, by simpa using this.2⟩

/-- **C172.** A live model returns exactly the phrases that looking the sentences up one after another
joins: `p` is a key exactly when some sentence, looked up in the model as the sentences before it have
left it, yields `p` as a phrase. -/
theorem C172_live (c : Cfg S) (s : Ph) (sents : List (List Str)) (p : Str) :
    p ∈ keys (findPhrases c s sents).2 ↔
      ∃ i, i < sents.length ∧
        ∃ x, (p, some x) ∈ yielded c (after c s (sents.take i)) (sents.getD i []) := by
  rw [← get?_isSome_iff]
  simp only [findPhrases]
  rw [find_fold, live_yield]
  simp only [List.nil_append]
  constructor
  · intro h
    obtain ⟨x, hx⟩ := Option.isSome_iff_exists.mp h
    rcases keep_some p x _ _ hx with ⟨a, b, hl, _⟩ | ⟨hg, _⟩
    · have : (p, some x) ∈ ((List.range sents.length).map
        (fun i : ℕ => yielded c (after c s (sents.take i)) (sents.getD i []))).flatten := by
        rw [hl]; simp
      obtain ⟨l, hl, hp⟩ := List.mem_flatten.mp this
      obtain ⟨i, hi, rfl⟩ := List.mem_map.mp hl
      exact ⟨i, List.mem_range.mp hi, x, hp⟩
    · cases hg
  · rintro ⟨i, hi, x, hx⟩
    exact keep_mem p x _ _ (List.mem_flatten.mpr
      ⟨_, List.mem_map.mpr ⟨i, List.mem_range.mpr hi, rfl⟩, hx⟩)

/-- **C172.** The score a live model returns for `p` is the one of its last occurrence: everything
yielded splits at it, and `p` is not a phrase again behind it. -/
theorem C172_live_last (c : Cfg S) (s : Ph) (sents : List (List Str)) (p : Str) (x : S)
    (h : get? (findPhrases c s sents).2 p = some x) :
    ∃ before behind : List (Str × Option S),
      ((List.range sents.length).map
        (fun i : ℕ => yielded c (after c s (sents.take i)) (sents.getD i []))).flatten =
          before ++ (p, some x) :: behind ∧ ∀ y, (p, some y) ∉ behind := by
  simp only [findPhrases] at h
  rw [find_fold, live_yield] at h
  simp only [List.nil_append] at h
  rcases keep_some p x _ _ h with r | ⟨hg, _⟩
  · exact r
  · cases hg

/-- **C172.** `find_phrases` leaves a live model as looking the sentences up would. -/
theorem C172_live_model (c : Cfg S) (s : Ph) (sents : List (List Str)) :
    (findPhrases c s sents).1.vocab = (after c s sents).vocab := by
  have gen : ∀ (sents : List (List Str)) (s : Ph) (d : PyDict Str S),
      (sents.foldl (findSentence c.connectors (scoreCandidate c s.corpusWords)) (s.vocab, d)).1 =
        (after c s sents).vocab := by
    intro sents
    induction sents with
    | nil => intro s d; rfl
    | cons t ts ih =>
      intro s d
      have := ih (transform c s t).1 ((yielded c s t).foldl keepPhrase d)
      simpa [transform, after, findSentence, yielded] using this
  exact gen sents s []

/-- connectors `of`, delimiter `_`, the score grows with the number of keys, as the default does -/
def findCfg : Cfg Nat := ⟨["of".toList], ['_'], fun _ _ n len _ _ => n * len, 1, 1, 1000⟩

/-- **C172.** (finding) The score a live model reports for a phrase depends on what was looked up
before: asking again about the same sentence gives another score, because `score_candidate` inserts
the words it does not know and the number of keys enters the score. -/
theorem C172_live_drifts :
    let s := addVocab findCfg Ph.empty [["new", "york"].map String.toList, ["new", "york"].map String.toList]
    let q := [["new", "york", "xx", "yy"].map String.toList]
    get? (findPhrases findCfg s q).2 "new_york".toList ≠
      get? (findPhrases findCfg (findPhrases findCfg s q).1 q).2 "new_york".toList := by
  decide

example : frozenFind demoCfg [("bank_of_town".toList, 5), ("is_it".toList, 1)]
    [["bank", "of", "town", "is", "it"].map String.toList, ["of", "bank", "of", "town"].map String.toList] =
    [("bank_of_town".toList, 5)] := by decide

example : (findPhrases demoCfg demoPh [["of", "bank", "of", "town", "is", "of"].map String.toList]).2 =
    [("bank_of_town".toList, 2)] := by decide

end Verif.Phrases
