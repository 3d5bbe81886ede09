import Mathlib.Data.List.Dedup
import Mathlib.Data.List.Infix
import Mathlib.Data.List.Perm.Subperm
import Verif.Phrases.ScanProps
import Verif.Utils.VocabProps

/-! Property C12: phrase counts are exact and do not depend on batching. -/

namespace Verif.Phrases
open Verif PyDict Vocab Text

/-! ### specification -/

section
variable {τ : Type} [DecidableEq τ]

/-- Spec: the number of occurrences of `w` in `l` -/
def occurs (l : List τ) (w : τ) : Nat := l.count w

theorem occurs_append (a b : List τ) (w : τ) : occurs (a ++ b) w = occurs a w + occurs b w := by
  simp [occurs]
theorem occurs_perm {a b : List τ} (h : a.Perm b) (w : τ) : occurs a w = occurs b w := h.count_eq w
theorem occurs_pos {a : List τ} {w : τ} : 0 < occurs a w ↔ w ∈ a := List.count_pos_iff
theorem getD_countWords' (v : PyDict τ Nat) (s : List τ) (w : τ) :
    getD (countWords v s) w 0 = getD v w 0 + occurs s w := getD_countWords v s w
@[simp] theorem occurs_nil (w : τ) : occurs [] w = 0 := rfl
end

variable {S : Type} [LinearOrder S]

/-- Spec of C12: the candidate starting at the first word of a list: `(a, connectors, b)` where `b`
is the next word that is not a connector. -/
def phraseAt (connectors : List Str) : List Str → Option (Str × List Str × Str)
  | [] => none
  | a :: rest =>
    if a ∈ connectors then none
    else match rest.dropWhile (fun w => decide (w ∈ connectors)) with
      | [] => none
      | b :: _ => some (a, rest.takeWhile (fun w => decide (w ∈ connectors)), b)

/-- Spec of C12: the candidates of a sentence, one for each position that starts one -/
def candidatesOf (connectors : List Str) (sent : List Str) : List (Str × List Str × Str) :=
  sent.tails.filterMap (phraseAt connectors)

/-- Spec of C12: the text of a candidate -/
def textOf (delim : Str) (t : Str × List Str × Str) : Str := joinWith delim ([t.1] ++ t.2.1 ++ [t.2.2])

/-- Spec of C12: everything counted in a sentence: each word that is not a connector, and the text of
each candidate -/
def counted (connectors : List Str) (delim : Str) (sent : List Str) : List Str :=
  sent.filter (fun w => decide (w ∉ connectors)) ++ (candidatesOf connectors sent).map (textOf delim)

/-- Spec of C12: how often `k` is counted in a corpus -/
def trueCount (c : Cfg S) (sents : List (List Str)) (k : Str) : Nat :=
  occurs (sents.map (counted c.connectors c.delim)).flatten k

/-! ### one sentence -/

theorem candidatesOf_nil (conn : List Str) : candidatesOf conn [] = [] := by
  simp [candidatesOf, phraseAt]

theorem candidatesOf_conn {conn : List Str} {w : Str} (h : w ∈ conn) (s : List Str) :
    candidatesOf conn (w :: s) = candidatesOf conn s := by
  simp [candidatesOf, List.tails_cons, phraseAt, h]

theorem candidatesOf_append_conn {conn mid : List Str} (h : ∀ m ∈ mid, m ∈ conn) (s : List Str) :
    candidatesOf conn (mid ++ s) = candidatesOf conn s := by
  induction mid with
  | nil => rfl
  | cons m mid ih =>
    rw [List.cons_append, candidatesOf_conn (h m (by simp)), ih (fun x hx => h x (by simp [hx]))]

theorem candidatesOf_end {conn mid : List Str} {a : Str} (ha : a ∉ conn) (h : ∀ m ∈ mid, m ∈ conn) :
    candidatesOf conn (a :: mid) = [] := by
  have h1 := candidatesOf_append_conn h []
  rw [List.append_nil, candidatesOf_nil] at h1
  have hd : mid.dropWhile (fun w => decide (w ∈ conn)) = [] := by
    have := List.dropWhile_append_of_pos (l₂ := []) (p := fun w => decide (w ∈ conn))
      (show ∀ a ∈ mid, _ by simpa using h)
    simpa using this
  unfold candidatesOf at h1 ⊢
  simp only [List.tails_cons, List.filterMap_cons, phraseAt, ha, if_false, hd, h1]

theorem candidatesOf_word {conn mid : List Str} {a b : Str} (ha : a ∉ conn) (h : ∀ m ∈ mid, m ∈ conn)
    (hb : b ∉ conn) (s : List Str) :
    candidatesOf conn (a :: mid ++ b :: s) = (a, mid, b) :: candidatesOf conn (b :: s) := by
  have hd : (mid ++ b :: s).dropWhile (fun w => decide (w ∈ conn)) = b :: s := by
    rw [List.dropWhile_append_of_pos (by simpa using h), List.dropWhile_cons]
    simp [hb]
  have ht : (mid ++ b :: s).takeWhile (fun w => decide (w ∈ conn)) = mid := by
    rw [List.takeWhile_append_of_pos (by simpa using h), List.takeWhile_cons]
    simp [hb]
  have h1 := candidatesOf_append_conn h (b :: s)
  rw [← h1]
  unfold candidatesOf
  simp only [List.cons_append, List.tails_cons, List.filterMap_cons, phraseAt, ha, if_false, hd, ht]

theorem filter_conn {conn mid : List Str} (h : ∀ m ∈ mid, m ∈ conn) (s : List Str) :
    (mid ++ s).filter (fun w => decide (w ∉ conn)) = s.filter (fun w => decide (w ∉ conn)) := by
  rw [List.filter_append, List.filter_eq_nil_iff.mpr (by simpa using h)]; rfl

theorem countWords_append (v : PyDict Str Nat) (a b : List Str) :
    countWords v (a ++ b) = countWords (countWords v a) b := by
  unfold countWords; rw [List.map_append, accum_append]

theorem bump1_eq (v : PyDict Str Nat) (k : Str) : bump1 v k = countWords v [k] := rfl

theorem learn_fold (c : Cfg S) (sent : List Str) :
    (∀ v t, ∃ es r, sent.foldl (learnWord c) ⟨v, none, [], t⟩ = r ∧ r.vocab = countWords v es ∧
      r.total = t + sent.length ∧ es.Perm (counted c.connectors c.delim sent)) ∧
    (∀ v a mid t, a ∉ c.connectors → (∀ m ∈ mid, m ∈ c.connectors) →
      ∃ es r, sent.foldl (learnWord c) ⟨v, some a, mid, t⟩ = r ∧ r.vocab = countWords v es ∧
      r.total = t + sent.length ∧
      (a :: es).Perm (counted c.connectors c.delim (a :: mid ++ sent))) := by
  induction sent with
  | nil =>
    refine ⟨fun v t => ⟨[], _, rfl, rfl, rfl, by simp [counted, candidatesOf_nil]⟩,
      fun v a mid t ha hm => ⟨[], _, rfl, rfl, rfl, ?_⟩⟩
    rw [List.append_nil, counted, candidatesOf_end ha hm]
    have := filter_conn hm []
    simp only [List.append_nil, List.filter_nil] at this
    simp only [List.filter_cons, ha, not_false_eq_true, decide_true, if_true, this, List.map_nil,
      List.append_nil]
    exact List.Perm.refl _
  | cons w sent ih =>
    obtain ⟨ihA, ihB⟩ := ih
    refine ⟨fun v t => ?_, fun v a mid t ha hm => ?_⟩
    · by_cases hw : w ∈ c.connectors
      · obtain ⟨es, r, h1, h2, h3, h4⟩ := ihA v (t + 1)
        refine ⟨es, r, ?_, h2, by rw [h3]; simp; omega, ?_⟩
        · rw [List.foldl_cons, ← h1]; congr 1; simp [learnWord, hw]
        · simpa [counted, candidatesOf_conn hw, hw] using h4
      · obtain ⟨es, r, h1, h2, h3, h4⟩ := ihB (bump1 v w) w [] (t + 1) hw (by simp)
        refine ⟨w :: es, r, ?_, ?_, by rw [h3]; simp; omega, by simpa using h4⟩
        · rw [List.foldl_cons, ← h1]; congr 1; simp [learnWord, hw]
        · rw [h2, bump1_eq]; exact (countWords_append v [w] es).symm
    · by_cases hw : w ∈ c.connectors
      · obtain ⟨es, r, h1, h2, h3, h4⟩ := ihB v a (mid ++ [w]) (t + 1) ha (by
          intro m hm'
          rcases List.mem_append.mp hm' with h | h
          · exact hm m h
          · simp at h; exact h ▸ hw)
        refine ⟨es, r, ?_, h2, by rw [h3]; simp; omega, by simpa using h4⟩
        rw [List.foldl_cons, ← h1]; congr 1; simp [learnWord, hw]
      · obtain ⟨es, r, h1, h2, h3, h4⟩ := ihB
          (bump1 (bump1 v w) (joinWith c.delim ([a] ++ mid ++ [w]))) w [] (t + 1) hw (by simp)
        refine ⟨w :: joinWith c.delim ([a] ++ mid ++ [w]) :: es, r, ?_, ?_,
          by rw [h3]; simp; omega, ?_⟩
        · rw [List.foldl_cons, ← h1]; congr 1; simp [learnWord, hw]
        · rw [h2, bump1_eq, bump1_eq, ← countWords_append, ← countWords_append]; rfl
        · have e : counted c.connectors c.delim (a :: mid ++ w :: sent) =
              a :: (w :: sent).filter (fun w => decide (w ∉ c.connectors)) ++
                joinWith c.delim ([a] ++ mid ++ [w]) ::
                (candidatesOf c.connectors (w :: sent)).map (textOf c.delim) := by
            rw [counted, candidatesOf_word ha hm hw, List.cons_append, List.filter_cons,
              filter_conn hm]
            simp [ha, textOf]
          rw [e]
          refine List.Perm.cons _ ?_
          refine List.Perm.trans ?_ List.perm_middle.symm
          refine List.Perm.trans (List.Perm.swap _ _ _) (List.Perm.cons _ ?_)
          exact h4

/-! ### a corpus -/

/-- result of a sentence before the size check -/
theorem learn_sentence (c : Cfg S) (v : PyDict Str Nat) (t : Nat) (sent : List Str) :
    ∃ es r, sent.foldl (learnWord c) ⟨v, none, [], t⟩ = r ∧ r.vocab = countWords v es ∧
      r.total = t + sent.length ∧ es.Perm (counted c.connectors c.delim sent) :=
  (learn_fold c sent).1 v t

theorem trueCount_append (c : Cfg S) (a b : List (List Str)) (k : Str) :
    trueCount c (a ++ b) k = trueCount c a k + trueCount c b k := by
  simp [trueCount, occurs_append]

theorem trueCount_single (c : Cfg S) (s : List Str) (k : Str) :
    trueCount c [s] k = occurs (counted c.connectors c.delim s) k := by simp [trueCount]

/-- number of words of a corpus -/
def nWords (sents : List (List Str)) : Nat := (sents.map List.length).sum

theorem getD_prune_le (m : Nat) {v : PyDict Str Nat} (h : WF v) (k : Str) :
    getD (pruneVocab none m v).1 k 0 ≤ getD v k 0 := by
  rw [(C14_prune_exact none m v h).1, getD_filter h]
  split <;> omega

theorem WF_prune (m : Nat) {v : PyDict Str Nat} (h : WF v) : WF (pruneVocab none m v).1 := by
  rw [(C14_prune_exact none m v h).1]; exact WF_filter h _

/-- upper bounds that hold with or without pruning -/
structure Upper (c : Cfg S) (sents : List (List Str)) (s : Ph) : Prop where
  wf : WF s.vocab
  le : ∀ k, getD s.vocab k 0 ≤ trueCount c sents k
  words : s.corpusWords = nWords sents
  pos : 1 ≤ s.minReduce

theorem upper_sentence (c : Cfg S) {sents : List (List Str)} {s : Ph} (h : Upper c sents s)
    (sent : List Str) : Upper c (sents ++ [sent]) (learnSentence c s sent) := by
  obtain ⟨es, r, h1, h2, h3, h4⟩ := learn_sentence c s.vocab s.corpusWords sent
  have hwf : WF r.vocab := by rw [h2]; exact WF_countWords h.wf es
  have hle : ∀ k, getD r.vocab k 0 ≤ trueCount c (sents ++ [sent]) k := by
    intro k
    rw [h2, getD_countWords', trueCount_append, trueCount_single, occurs_perm h4]
    have := h.le k; omega
  have hw : r.total = nWords (sents ++ [sent]) := by
    rw [h3, h.words]; simp [nWords]
  have hp := h.pos
  unfold learnSentence
  simp only [h1]
  split
  · exact ⟨WF_prune _ hwf, fun k => le_trans (getD_prune_le _ hwf k) (hle k), hw, by simp only; omega⟩
  · exact ⟨hwf, hle, hw, hp⟩

theorem upper_learn (c : Cfg S) (sents : List (List Str)) : Upper c sents (learnVocab c sents) := by
  have : ∀ (todo done : List (List Str)) (s : Ph), Upper c done s →
      Upper c (done ++ todo) (todo.foldl (learnSentence c) s) := by
    intro todo
    induction todo with
    | nil => intro done s h; simpa using h
    | cons x todo ih =>
      intro done s h
      have := ih (done ++ [x]) _ (upper_sentence c h x)
      simpa using this
  have h := this sents [] Ph.empty ⟨WF_nil, by simp [Ph.empty, getD], rfl, le_refl _⟩
  rw [List.nil_append] at h
  exact h

theorem upper_add (c : Cfg S) {sents : List (List Str)} {s : Ph} (h : Upper c sents s)
    (batch : List (List Str)) : Upper c (sents ++ batch) (addVocab c s batch) := by
  have hn := upper_learn c batch
  have hw : s.corpusWords + (learnVocab c batch).corpusWords = nWords (sents ++ batch) := by
    rw [h.words, hn.words]; simp [nWords]
  have h1 := h.pos
  unfold addVocab
  simp only
  split
  · refine ⟨hn.wf, fun k => ?_, hw, h1⟩
    rw [trueCount_append]
    have := hn.le k; simp only; omega
  · have hwf := WF_accum h.wf (learnVocab c batch).vocab
    have hle : ∀ k, getD (accum s.vocab (learnVocab c batch).vocab) k 0 ≤ trueCount c (sents ++ batch) k := by
      intro k
      rw [trueCount_append]
      have e : mergeCounts s.vocab (learnVocab c batch).vocab =
          accum s.vocab (learnVocab c batch).vocab := by
        unfold mergeCounts accum
        congr 1
        funext d p
        by_cases hc : contains d p.1 = true
        · rw [if_pos hc]
        · rw [if_neg hc, getD_of_not_mem (fun hh => hc ((contains_iff _ _).mpr hh))]; simp
      rw [← e, C14_merge_counts _ _ hn.wf]
      have := h.le k; have := hn.le k; omega
    split
    · exact ⟨WF_prune _ hwf, fun k => le_trans (getD_prune_le _ hwf k) (hle k), hw, by simp only; omega⟩
    · exact ⟨hwf, hle, hw, by simp only; omega⟩

theorem upper_batches (c : Cfg S) (batches : List (List (List Str))) :
    Upper c batches.flatten (batches.foldl (addVocab c) Ph.empty) := by
  have : ∀ (todo : List (List (List Str))) (done : List (List Str)) (s : Ph), Upper c done s →
      Upper c (done ++ todo.flatten) (todo.foldl (addVocab c) s) := by
    intro todo
    induction todo with
    | nil => intro done s h; simpa using h
    | cons x todo ih =>
      intro done s h
      have := ih (done ++ x) _ (upper_add c h x)
      simpa using this
  have h := this batches [] Ph.empty ⟨WF_nil, by simp [Ph.empty, getD], rfl, le_refl _⟩
  simpa using h

/-- **C12.** With or without pruning, after any sequence of `add_vocab` calls no reported count
exceeds the true count, and `corpus_word_count` is the number of words seen. -/
theorem C12_counts_never_exceed (c : Cfg S) (batches : List (List (List Str))) :
    let s := batches.foldl (addVocab c) Ph.empty
    (∀ k, getD s.vocab k 0 ≤ trueCount c batches.flatten k) ∧
    s.corpusWords = nWords batches.flatten :=
  ⟨(upper_batches c batches).le, (upper_batches c batches).words⟩

/-! ### without pruning -/

/-- exact counts -/
structure Exact (c : Cfg S) (sents : List (List Str)) (s : Ph) : Prop where
  wf : WF s.vocab
  eq : ∀ k, getD s.vocab k 0 = trueCount c sents k
  keys : ∀ k, k ∈ keys s.vocab ↔ 0 < trueCount c sents k

/-- the number of different things counted -/
def nTypes (c : Cfg S) (sents : List (List Str)) : Nat :=
  ((sents.map (counted c.connectors c.delim)).flatten).dedup.length

theorem length_le_nTypes (c : Cfg S) (sents : List (List Str)) {v : PyDict Str Nat} (h : WF v)
    (hk : ∀ k ∈ keys v, 0 < trueCount c sents k) : v.length ≤ nTypes c sents := by
  have : List.Subperm (keys v) ((sents.map (counted c.connectors c.delim)).flatten).dedup := by
    apply List.Nodup.subperm h
    intro k hk'
    rw [List.mem_dedup]
    exact occurs_pos.mp (hk k hk')
  simpa [nTypes] using this.length_le

theorem nTypes_mono (c : Cfg S) {a b : List (List Str)}
    (h : ∀ k, 0 < trueCount c a k → 0 < trueCount c b k) : nTypes c a ≤ nTypes c b := by
  unfold nTypes
  apply List.Subperm.length_le
  apply List.Nodup.subperm (List.nodup_dedup _)
  intro k hk
  rw [List.mem_dedup] at hk ⊢
  exact occurs_pos.mp (h k (occurs_pos.mpr hk))

theorem exact_sentence (c : Cfg S) {sents : List (List Str)} {s : Ph} (h : Exact c sents s)
    (sent : List Str) (hmax : nTypes c (sents ++ [sent]) ≤ c.maxVocabSize) :
    Exact c (sents ++ [sent]) (learnSentence c s sent) := by
  obtain ⟨es, r, h1, h2, h3, h4⟩ := learn_sentence c s.vocab s.corpusWords sent
  have hwf : WF r.vocab := by rw [h2]; exact WF_countWords h.wf es
  have hle : ∀ k, getD r.vocab k 0 = trueCount c (sents ++ [sent]) k := by
    intro k
    rw [h2, getD_countWords', trueCount_append, trueCount_single, occurs_perm h4, h.eq k]
  have hk : ∀ k, k ∈ PyDict.keys r.vocab ↔ 0 < trueCount c (sents ++ [sent]) k := by
    intro k
    rw [h2, mem_keys_countWords, h.keys, trueCount_append, trueCount_single, h4.mem_iff,
      ← occurs_pos]
    omega
  have hlen := length_le_nTypes c (sents ++ [sent]) hwf (fun k hk' => (hk k).mp hk')
  unfold learnSentence
  simp only [h1]
  rw [if_neg (by omega)]
  exact ⟨hwf, hle, hk⟩

theorem exact_learn (c : Cfg S) (sents : List (List Str)) (hmax : nTypes c sents ≤ c.maxVocabSize) :
    Exact c sents (learnVocab c sents) := by
  have : ∀ (todo done : List (List Str)) (s : Ph), Exact c done s →
      nTypes c (done ++ todo) ≤ c.maxVocabSize →
      Exact c (done ++ todo) (todo.foldl (learnSentence c) s) := by
    intro todo
    induction todo with
    | nil => intro done s h _; simpa using h
    | cons x todo ih =>
      intro done s h hm
      have hm' : nTypes c (done ++ [x]) ≤ c.maxVocabSize := by
        refine le_trans (nTypes_mono c ?_) hm
        intro k hk
        rw [trueCount_append] at hk ⊢
        have : trueCount c (x :: todo) k = trueCount c [x] k + trueCount c todo k :=
          trueCount_append c [x] todo k
        omega
      have := ih (done ++ [x]) _ (exact_sentence c h x hm') (by simpa using hm)
      simpa using this
  have h := this sents [] Ph.empty ⟨WF_nil, by simp [Ph.empty, getD, trueCount],
    by simp [Ph.empty, trueCount]⟩ (by simpa using hmax)
  rw [List.nil_append] at h
  exact h

theorem exact_add (c : Cfg S) {sents : List (List Str)} {s : Ph} (h : Exact c sents s)
    (batch : List (List Str)) (hmax : nTypes c (sents ++ batch) ≤ c.maxVocabSize) :
    Exact c (sents ++ batch) (addVocab c s batch) := by
  have hn := exact_learn c batch (le_trans (nTypes_mono c (fun k hk => by
    rw [trueCount_append]; omega)) hmax)
  unfold addVocab
  simp only
  split
  · next he =>
    have h0 : ∀ k, trueCount c sents k = 0 := by
      intro k; rw [← h.eq k, he]; rfl
    refine ⟨hn.wf, fun k => ?_, fun k => ?_⟩
    · rw [trueCount_append, h0 k, Nat.zero_add]; exact hn.eq k
    · rw [trueCount_append, h0 k, Nat.zero_add]; exact hn.keys k
  · have hwf := WF_accum h.wf (learnVocab c batch).vocab
    have hle : ∀ k, getD (accum s.vocab (learnVocab c batch).vocab) k 0 = trueCount c (sents ++ batch) k := by
      intro k
      rw [trueCount_append]
      have e : mergeCounts s.vocab (learnVocab c batch).vocab =
          accum s.vocab (learnVocab c batch).vocab := by
        unfold mergeCounts accum
        congr 1
        funext d p
        by_cases hc : contains d p.1 = true
        · rw [if_pos hc]
        · rw [if_neg hc, getD_of_not_mem (fun hh => hc ((contains_iff _ _).mpr hh))]; simp
      rw [← e, C14_merge_counts _ _ hn.wf, h.eq, hn.eq]
    have hk : ∀ k, k ∈ PyDict.keys (accum s.vocab (learnVocab c batch).vocab) ↔
        0 < trueCount c (sents ++ batch) k := by
      intro k
      rw [mem_keys_accum, trueCount_append, h.keys]
      have := hn.keys k
      unfold PyDict.keys at this
      rw [this]; omega
    have hlen := length_le_nTypes c (sents ++ batch) hwf (fun k hk' => (hk k).mp hk')
    rw [if_neg (by omega)]
    exact ⟨hwf, hle, hk⟩

/-- **C12.** While the number of different words and candidates stays within `max_vocab_size`, after
any sequence of `add_vocab` calls the count of `k` is exactly the number of times `k` is a word or
the text of a candidate in the sentences seen, the vocabulary has exactly the keys that occur, and
`corpus_word_count` is the number of words. -/
theorem C12_counts_exact (c : Cfg S) (batches : List (List (List Str)))
    (hmax : nTypes c batches.flatten ≤ c.maxVocabSize) :
    let s := batches.foldl (addVocab c) Ph.empty
    (∀ k, getD s.vocab k 0 = trueCount c batches.flatten k) ∧
    (∀ k, k ∈ keys s.vocab ↔ 0 < trueCount c batches.flatten k) ∧
    s.corpusWords = nWords batches.flatten := by
  have : ∀ (todo : List (List (List Str))) (done : List (List Str)) (s : Ph), Exact c done s →
      nTypes c (done ++ todo.flatten) ≤ c.maxVocabSize →
      Exact c (done ++ todo.flatten) (todo.foldl (addVocab c) s) := by
    intro todo
    induction todo with
    | nil => intro done s h _; simpa using h
    | cons x todo ih =>
      intro done s h hm
      have hm' : nTypes c (done ++ x) ≤ c.maxVocabSize := by
        refine le_trans (nTypes_mono c ?_) hm
        intro k hk
        rw [List.flatten_cons, ← List.append_assoc, trueCount_append]
        omega
      have := ih (done ++ x) _ (exact_add c h x hm') (by simpa using hm)
      simpa using this
  have h := this batches [] Ph.empty ⟨WF_nil, by simp [Ph.empty, getD, trueCount],
    by simp [Ph.empty, trueCount]⟩ (by simpa using hmax)
  simp only [List.nil_append] at h
  exact ⟨h.eq, h.keys, (upper_batches c batches).words⟩

/-- **C12.** Two ways of feeding the same sentences (in any order, in any batches) give the same
counts. -/
theorem C12_batching_independent (c : Cfg S) (b1 b2 : List (List (List Str)))
    (h : b1.flatten.Perm b2.flatten) (hmax : nTypes c b1.flatten ≤ c.maxVocabSize) (k : Str) :
    getD (b1.foldl (addVocab c) Ph.empty).vocab k 0 = getD (b2.foldl (addVocab c) Ph.empty).vocab k 0 ∧
    (b1.foldl (addVocab c) Ph.empty).corpusWords = (b2.foldl (addVocab c) Ph.empty).corpusWords := by
  have hc : ∀ k, trueCount c b1.flatten k = trueCount c b2.flatten k := by
    intro k
    unfold trueCount
    exact occurs_perm ((h.map _).flatten) k
  have hmax2 : nTypes c b2.flatten ≤ c.maxVocabSize :=
    le_trans (nTypes_mono c (fun k hk => by rw [hc k]; exact hk)) hmax
  obtain ⟨e1, _, w1⟩ := C12_counts_exact c b1 hmax
  obtain ⟨e2, _, w2⟩ := C12_counts_exact c b2 hmax2
  refine ⟨by rw [e1, e2, hc], ?_⟩
  rw [w1, w2]
  exact (h.map List.length).sum_nat

example : nTypes demoCfg [["bank", "of", "town", "is"].map String.toList,
      ["bank", "of", "town"].map String.toList] ≤ demoCfg.maxVocabSize ∧
    trueCount demoCfg [["bank", "of", "town", "is"].map String.toList,
      ["bank", "of", "town"].map String.toList] "bank_of_town".toList = 2 ∧
    getD demoPh.vocab "bank_of_town".toList 0 = 2 := by decide

end Verif.Phrases
