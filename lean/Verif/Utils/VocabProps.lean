import Mathlib.Tactic.Common
import Mathlib.Tactic.Ring
import Mathlib.Tactic.Linarith
import Verif.Utils.VocabModel

/-! Property C14: vocabulary pruning. -/

namespace Verif.Vocab
open Verif PyDict

variable {τ : Type} [DecidableEq τ]

theorem erase_eq_filter (v : PyDict τ Nat) (w : τ) : erase v w = v.filter (fun p => !decide (p.1 = w)) := by
  induction v with
  | nil => rfl
  | cons p v ih =>
    obtain ⟨k, c⟩ := p
    by_cases e : k = w
    · simp [erase, e, ih]
    · simp [erase, e, ih]

/-- the loop over the remaining keys `ws`, when the entries of `pre` have been decided -/
theorem pruneLoop_eq (rule : TrimRule τ) (m : Nat) (pre rest : PyDict τ Nat) (n : Nat)
    (hw : (keys (pre ++ rest)).Nodup) :
    pruneLoop rule m (keys rest) (pre ++ rest, n) =
      (pre ++ rest.filter (fun p => keepItem rule p.1 p.2 m),
        n + (values (rest.filter (fun p => !keepItem rule p.1 p.2 m))).sum) := by
  induction rest generalizing pre n with
  | nil => simp [pruneLoop, values]
  | cons p rest ih =>
    obtain ⟨w, c⟩ := p
    have hnotin : w ∉ keys pre := by
      intro h
      simp only [keys_append, keys_cons] at hw
      exact (List.nodup_append.mp hw).2.2 w h w (by simp) rfl
    have hnotin2 : w ∉ keys rest := by
      simp only [keys_append, keys_cons] at hw
      exact (List.nodup_cons.mp (List.nodup_append.mp hw).2.1).1
    have hg : get? (pre ++ (w, c) :: rest) w = some c := by
      rw [get?_append, (get?_eq_none_iff _ _).mpr hnotin]; simp [get?]
    rw [keys_cons]
    unfold pruneLoop
    rw [List.foldl_cons]
    simp only [hg]
    by_cases hk : keepItem rule w c m = true
    · simp only [hk, if_true]
      have := ih (pre ++ [(w, c)]) n (by simpa using hw)
      unfold pruneLoop at this
      rw [List.append_assoc] at this
      simp only [List.singleton_append] at this
      rw [this]
      simp [List.filter_cons, hk]
    · simp only [hk]
      have he : erase (pre ++ (w, c) :: rest) w = pre ++ rest := by
        rw [erase_eq_filter, List.filter_append, List.filter_cons]
        have h1 : pre.filter (fun p => !decide (p.1 = w)) = pre := by
          apply List.filter_eq_self.mpr
          intro p hp
          have : p.1 ≠ w := by rintro rfl; exact hnotin (mem_keys_of_mem (v := p.2) hp)
          simp [this]
        have h2 : rest.filter (fun p => !decide (p.1 = w)) = rest := by
          apply List.filter_eq_self.mpr
          intro p hp
          have : p.1 ≠ w := by rintro rfl; exact hnotin2 (mem_keys_of_mem (v := p.2) hp)
          simp [this]
        rw [h1, h2]; simp
      rw [he]
      have := ih pre (n + c) (by
        simp only [keys_append, keys_cons] at hw ⊢
        exact List.Nodup.sublist (List.Sublist.append_left (List.sublist_cons_self _ _) _) hw)
      unfold pruneLoop at this
      simp only [Bool.false_eq_true, if_false]
      rw [this]
      simp [List.filter_cons, hk, values]
      omega

/-- **C14.** `prune_vocab` keeps exactly the entries its rule keeps (without a `trim_rule`, those with
count at least `min_reduce`), with their counts and in their order, and returns the sum of the counts
of the removed ones. -/
theorem C14_prune_exact (rule : TrimRule τ) (m : Nat) (v : PyDict τ Nat) (hv : WF v) :
    pruneVocab rule m v = (v.filter (fun p => keepItem rule p.1 p.2 m),
      (values (v.filter (fun p => !keepItem rule p.1 p.2 m))).sum) ∧
    (∀ w c, keepItem (none : TrimRule τ) w c m = true ↔ m ≤ c) ∧
    (values v).sum = (values (pruneVocab rule m v).1).sum + (pruneVocab rule m v).2 := by
  have h := pruneLoop_eq rule m [] v 0 hv
  have h' : pruneVocab rule m v = (v.filter (fun p => keepItem rule p.1 p.2 m),
      (values (v.filter (fun p => !keepItem rule p.1 p.2 m))).sum) := by
    unfold pruneVocab
    simpa using h
  refine ⟨h', by intro w c; simp [keepItem], ?_⟩
  rw [h']
  simp only
  clear h h'
  induction v with
  | nil => simp [values]
  | cons p v ih =>
    have ih := ih (List.nodup_cons.mp hv).2
    simp only [values] at ih ⊢
    by_cases hk : keepItem rule p.1 p.2 m = true
    · simp [List.filter_cons, hk, ih]; omega
    · simp [List.filter_cons, hk, ih]; omega

example : pruneVocab none 3 [(10, 5), (20, 2), (30, 3), (40, 1)] = ([(10, 5), (30, 3)], 3) := by decide

/-- Spec of C14: does `prune_vocab` keep word `w` with count `c`?  The trim rule, if there is one,
decides: `RULE_KEEP` keeps, `RULE_DISCARD` discards, `RULE_DEFAULT` (and no rule) means
"count at least `min_reduce`". -/
def survives (rule : TrimRule τ) (m : Nat) (w : τ) (c : Nat) : Prop :=
  (rule = none ∧ m ≤ c) ∨
  ∃ r, rule = some r ∧ (r w c m = .keep ∨ (r w c m = .default ∧ m ≤ c))

/-- **C14.** `prune_vocab` keeps exactly the entries that survive the rule, unchanged and in order,
and returns the number of occurrences thrown away. -/
theorem C14_prune_members (rule : TrimRule τ) (m : Nat) (v : PyDict τ Nat) (hv : WF v) :
    (pruneVocab rule m v).1.Sublist v ∧
    (∀ w c, get? (pruneVocab rule m v).1 w = some c ↔ get? v w = some c ∧ survives rule m w c) ∧
    (values v).sum = (values (pruneVocab rule m v).1).sum + (pruneVocab rule m v).2 := by
  obtain ⟨h1, _, h3⟩ := C14_prune_exact rule m v hv
  have hk : ∀ w c, keepItem rule w c m = true ↔ survives rule m w c := by
    intro w c
    cases rule with
    | none => simp [keepItem, survives]
    | some r =>
      simp only [keepItem, survives, reduceCtorEq, false_and, Option.some.injEq, false_or,
        exists_eq_left']
      cases r w c m <;> simp
  have e : (pruneVocab rule m v).1 = v.filter (fun p => keepItem rule p.1 p.2 m) := by rw [h1]
  refine ⟨by rw [e]; exact List.filter_sublist, ?_, h3⟩
  intro w c
  rw [e, get?_filter hv]
  cases get? v w with
  | none => simp
  | some x =>
    by_cases hx : keepItem rule w x m = true
    · simp only [Option.filter, hx, if_true, Option.some.injEq]
      constructor
      · rintro rfl; exact ⟨rfl, (hk w x).mp hx⟩
      · exact fun h => h.1
    · simp only [Option.filter, hx, if_false, Option.some.injEq, reduceCtorEq, false_iff, not_and]
      rintro rfl h
      exact hx ((hk w x).mpr h)

example : (pruneVocab (some (fun w _ _ => if w = 7 then .discard else if w = 8 then .keep else .default))
    2 [(7, 9), (8, 1), (9, 1), (10, 2)]) = ([(8, 1), (10, 2)], 10) := by decide

/-- **C14.** `trim_vocab_by_freq` (no rule) keeps at least `topk` words if there are that many, and
every kept word is strictly more frequent than every removed one; counts are unchanged. -/
theorem C14_trim_by_freq (k : Nat) (v v' : PyDict τ Nat) (hv : WF v)
    (h : trimByFreq none k v = some v') :
    min k v.length ≤ v'.length ∧ v'.Sublist v ∧
    (∀ p ∈ v', ∀ q ∈ v, q ∉ v' → q.2 < p.2) := by
  unfold trimByFreq at h
  split at h
  · next hk =>
    cases h
    exact ⟨by omega, List.Sublist.refl _, fun p _ q hq hn => absurd hq hn⟩
  · next hk =>
    cases hl : ((pySort (fun a b : Nat => decide (b ≤ a)) (values v)).take k).getLast? with
    | none => rw [hl] at h; cases h
    | some m =>
      rw [hl] at h
      simp only [Option.some.injEq] at h
      rw [(C14_prune_exact none m v hv).1] at h
      simp only at h
      subst h
      refine ⟨?_, List.filter_sublist, ?_⟩
      · let so := pySort (fun a b : Nat => decide (b ≤ a)) (values v)
        have hperm : so.Perm (values v) := pySort_perm _ _
        have hsorted : so.Pairwise (fun a b => decide (b ≤ a) = true) := by
          apply pySort_sorted
          · intro a b; simp only [decide_eq_true_eq]; omega
          · intro a b c; simp only [decide_eq_true_eq]; omega
        have hge : ∀ x ∈ so.take k, m ≤ x := by
          intro x hx
          have hp : (so.take k).Pairwise (fun a b => decide (b ≤ a) = true) :=
            List.Pairwise.sublist (List.take_sublist _ _) hsorted
          obtain ⟨ini, e⟩ := List.getLast?_eq_some_iff.mp hl
          have e' : so.take k = ini ++ [m] := e
          rw [e'] at hx hp
          rw [List.pairwise_append] at hp
          rcases List.mem_append.mp hx with hx | hx
          · simpa using hp.2.2 x hx m (by simp)
          · simp at hx; omega
        have h1 : (so.take k).length ≤ (so.filter (fun x => decide (m ≤ x))).length := by
          have : (so.take k) = (so.take k).filter (fun x => decide (m ≤ x)) := by
            symm; apply List.filter_eq_self.mpr; intro x hx; simpa using hge x hx
          rw [this]
          exact ((List.take_sublist k so).filter _).length_le
        have h2 : (so.filter (fun x => decide (m ≤ x))).length =
            (v.filter (fun p => keepItem none p.1 p.2 m)).length := by
          rw [(hperm.filter _).length_eq]
          unfold values
          rw [List.filter_map, List.length_map]
          rfl
        have h3 : so.length = v.length := by rw [hperm.length_eq]; simp [values]
        rw [List.length_take] at h1
        omega
      · intro p hp q hq hn
        simp only [List.mem_filter, keepItem, decide_eq_true_eq, not_and] at hp hn
        have := hn hq
        omega

example : trimByFreq none 2 [(10, 5), (20, 2), (30, 2), (40, 1)] = some [(10, 5), (20, 2), (30, 2)] := by
  decide

/-- **C14.** `merge_counts` adds the counts word by word. -/
theorem C14_merge_counts (d1 d2 : PyDict τ Nat) (h2 : WF d2) (w : τ) :
    getD (mergeCounts d1 d2) w 0 = getD d1 w 0 + getD d2 w 0 := by
  have e : mergeCounts d1 d2 = accum d1 d2 := by
    unfold mergeCounts accum
    congr 1
    funext d p
    by_cases hc : contains d p.1 = true
    · rw [if_pos hc]
    · rw [if_neg hc]
      have : p.1 ∉ keys d := fun h => hc ((contains_iff _ _).mpr h)
      rw [getD_of_not_mem this, Nat.zero_add]
  rw [e, getD_accum]
  congr 1
  clear e
  induction d2 with
  | nil => simp [weight, getD]
  | cons p d2 ih =>
    obtain ⟨k, c⟩ := p
    simp only [WF, keys_cons, List.nodup_cons] at h2
    have ih := ih h2.2
    unfold weight at ih ⊢
    simp only [List.map_cons, List.sum_cons]
    rw [ih]
    by_cases hk : k = w
    · subst hk; rw [getD_of_not_mem h2.1]; simp [getD, get?]
    · simp [hk, getD, get?]

/-! ### Counting with pruning -/

/-- Spec: occurrences of `w` in the sentences -/
def occ (sents : List (List τ)) (w : τ) : Nat := sents.flatten.count w

theorem getD_countWords (v : PyDict τ Nat) (s : List τ) (w : τ) :
    getD (countWords v s) w 0 = getD v w 0 + s.count w := by
  unfold countWords
  rw [getD_accum]
  congr 1
  unfold weight
  induction s with
  | nil => rfl
  | cons x s ih =>
    simp only [List.map_cons, List.sum_cons, List.count_cons, ih]
    by_cases e : x = w <;> simp [e] <;> omega

theorem mem_keys_countWords (v : PyDict τ Nat) (s : List τ) (w : τ) :
    w ∈ keys (countWords v s) ↔ w ∈ keys v ∨ w ∈ s := by
  unfold countWords
  rw [mem_keys_accum]; simp [Function.comp_def]

theorem WF_countWords {v : PyDict τ Nat} (h : WF v) (s : List τ) : WF (countWords v s) := WF_accum h _

theorem getD_filter {v : PyDict τ Nat} (hv : WF v) (p : τ × Nat → Bool) (w : τ) :
    getD (v.filter p) w 0 = if w ∈ keys v ∧ p (w, getD v w 0) = true then getD v w 0 else 0 := by
  unfold getD
  rw [get?_filter hv]
  cases hg : get? v w with
  | none =>
    have := (get?_eq_none_iff _ _).mp hg
    simp [this, Option.filter]
  | some c =>
    have : w ∈ keys v := (get?_isSome_iff _ _).mp (by simp [hg])
    by_cases hp : p (w, c) = true <;> simp [Option.filter, hp, this]

/-- the invariant of the scan over `sents` -/
structure ScanInv (rule : TrimRule τ) (sents : List (List τ)) (s : Scan τ) : Prop where
  wf : WF s.vocab
  total : s.total = (sents.map List.length).sum
  one : 1 ≤ s.minReduce
  upper : ∀ w, getD s.vocab w 0 ≤ occ sents w
  lower : rule = none → ∀ w, 2 * occ sents w ≤ 2 * getD s.vocab w 0 + (s.minReduce - 1) * (s.minReduce - 2)
  kept : ∀ w, (∀ c m, keepItem rule w c m = true) → getD s.vocab w 0 = occ sents w

theorem occ_append (a : List (List τ)) (s : List τ) (w : τ) : occ (a ++ [s]) w = occ a w + s.count w := by
  simp [occ]

theorem scanInv_step (rule : TrimRule τ) (maxSize : Option Nat) (sents : List (List τ)) (s : Scan τ)
    (sent : List τ) (h : ScanInv rule sents s) :
    ScanInv rule (sents ++ [sent]) (scanSentence rule maxSize s sent) := by
  obtain ⟨h1, h2, h3, h4, h5, h6⟩ := h
  have hwf := WF_countWords h1 sent
  have hb : ScanInv rule (sents ++ [sent]) ⟨countWords s.vocab sent, s.minReduce, s.total + sent.length⟩ := by
    refine ⟨hwf, ?_, h3, ?_, ?_, ?_⟩
    · simp [h2]
    · intro w; simp only; rw [getD_countWords, occ_append]; have := h4 w; omega
    · intro hr w; simp only; rw [getD_countWords, occ_append]; have := h5 hr w; omega
    · intro w hw; simp only; rw [getD_countWords, occ_append, h6 w hw]
  unfold scanSentence
  simp only
  split
  · obtain ⟨g1, g2, g3, g4, g5, g6⟩ := hb
    rw [(C14_prune_exact rule s.minReduce _ hwf).1]
    simp only at g1 g2 g3 g4 g5 g6 ⊢
    have hle : ∀ w, getD ((countWords s.vocab sent).filter (fun p => keepItem rule p.1 p.2 s.minReduce)) w 0 ≤
        getD (countWords s.vocab sent) w 0 := by
      intro w; rw [getD_filter hwf]; split <;> omega
    refine ⟨WF_filter hwf _, g2, by simp only; omega, fun w => le_trans (hle w) (g4 w), ?_, ?_⟩
    · intro hr w
      subst hr
      have := g5 rfl w
      rw [getD_filter hwf]
      obtain ⟨n, hn⟩ : ∃ n, s.minReduce = n + 1 := ⟨s.minReduce - 1, by omega⟩
      rw [hn] at this ⊢
      simp only [Nat.add_sub_cancel] at this ⊢
      have e1 : n + 1 - 2 = n - 1 := by omega
      have e2 : n + 1 + 1 - 1 = n + 1 := by omega
      have e3 : n + 1 + 1 - 2 = n := by omega
      rw [e1] at this
      rw [e3]
      have harith : n * (n - 1) + 2 * n = (n + 1) * n := by
        cases n with
        | zero => rfl
        | succ k => rw [Nat.add_sub_cancel]; ring
      split
      · omega
      · next hc =>
        have hsmall : getD (countWords s.vocab sent) w 0 ≤ n := by
          by_cases hk : w ∈ keys (countWords s.vocab sent)
          · have : ¬ keepItem none w (getD (countWords s.vocab sent) w 0) (n + 1) = true :=
              fun h => hc ⟨hk, h⟩
            simp only [keepItem, decide_eq_true_eq] at this
            omega
          · rw [getD_of_not_mem hk]; omega
        omega
    · intro w hw
      rw [getD_filter hwf]
      by_cases hk : w ∈ keys (countWords s.vocab sent)
      · rw [if_pos ⟨hk, hw _ _⟩]; exact g6 w hw
      · rw [if_neg (fun h => hk h.1)]
        have := g6 w hw
        rw [getD_of_not_mem hk] at this
        exact this
  · exact hb

theorem scanInv (rule : TrimRule τ) (maxSize : Option Nat) (sents : List (List τ)) :
    ScanInv rule sents (scanVocab rule maxSize sents).1 := by
  have : ∀ (todo done : List (List τ)) (s : Scan τ), ScanInv rule done s →
      ScanInv rule (done ++ todo) (todo.foldl (scanSentence rule maxSize) s) := by
    intro todo
    induction todo with
    | nil => intro done s h; simpa using h
    | cons x todo ih =>
      intro done s h
      have := ih (done ++ [x]) _ (scanInv_step rule maxSize done s x h)
      simpa using this
  have h0 : ScanInv rule [] (⟨[], 1, 0⟩ : Scan τ) :=
    ⟨WF_nil, rfl, le_refl _, by simp [getD, occ], by simp [getD, occ], by simp [getD, occ]⟩
  simpa [scanVocab] using this sents [] _ h0

/-- **C14.** Counting with pruning: the counts reported never exceed the true ones, whatever the
rule; the number of words and sentences is exact. -/
theorem C14_counts_never_exceed (rule : TrimRule τ) (maxSize : Option Nat) (sents : List (List τ)) :
    (∀ w c, get? (scanVocab rule maxSize sents).1.vocab w = some c → c ≤ occ sents w) ∧
    (scanVocab rule maxSize sents).1.total = (sents.map List.length).sum ∧
    (scanVocab rule maxSize sents).2 = sents.length := by
  have h := scanInv rule maxSize sents
  refine ⟨?_, h.total, rfl⟩
  intro w c hw
  have := h.upper w
  simpa [getD, hw] using this

/-- **C14.** Without a `trim_rule`, if `K` pruning passes happened, each word has lost at most
`K (K - 1) / 2` occurrences; a word that is really more frequent than that is in the vocabulary. -/
theorem C14_lost_at_most (maxSize : Option Nat) (sents : List (List τ)) (w : τ) :
    let s := (scanVocab none maxSize sents).1
    let K := s.minReduce - 1
    2 * occ sents w ≤ 2 * getD s.vocab w 0 + K * (K - 1) ∧
    (K * (K - 1) < 2 * occ sents w → w ∈ keys s.vocab) := by
  intro s K
  have h := (scanInv none maxSize sents).lower rfl w
  have e : s.minReduce - 1 - 1 = s.minReduce - 2 := by omega
  have h' : 2 * occ sents w ≤ 2 * getD s.vocab w 0 + K * (K - 1) := by
    simp only [K, e]; exact h
  refine ⟨h', ?_⟩
  intro hlt
  by_contra hn
  rw [getD_of_not_mem hn] at h'
  omega

/-- **C14.** A word the rule always keeps is counted exactly, and without `max_vocab_size` every word
is. -/
theorem C14_counts_exact (rule : TrimRule τ) (maxSize : Option Nat) (sents : List (List τ)) (w : τ)
    (h : maxSize = none ∨ maxSize = some 0 ∨ ∀ c m, keepItem rule w c m = true) :
    getD (scanVocab rule maxSize sents).1.vocab w 0 = occ sents w := by
  have nop : (maxSize = none ∨ maxSize = some 0) →
      getD (scanVocab rule maxSize sents).1.vocab w 0 = occ sents w := by
    intro hm
    have : ∀ (sents : List (List τ)) (s : Scan τ),
        getD (sents.foldl (scanSentence rule maxSize) s).vocab w 0 = getD s.vocab w 0 + occ sents w := by
      intro sents
      induction sents with
      | nil => intro s; simp [occ]
      | cons x sents ih =>
        intro s
        rw [List.foldl_cons, ih]
        have e : (scanSentence rule maxSize s x).vocab = countWords s.vocab x := by
          unfold scanSentence
          rcases hm with rfl | rfl <;> simp
        rw [e, getD_countWords]
        simp [occ]; omega
    have := this sents ⟨[], 1, 0⟩
    simpa [getD, scanVocab] using this
  rcases h with h | h | h
  · exact nop (Or.inl h)
  · exact nop (Or.inr h)
  · exact (scanInv rule maxSize sents).kept w h

/-- the first pass has threshold 1 and removes nothing, the second one removes the words seen once -/
example : (scanVocab none (some 2) [[1, 1, 1, 2, 3], [1, 4]]).1.vocab = [(1, 4)] ∧
    (scanVocab none (some 2) [[1, 1, 1, 2, 3], [1, 4]]).1.minReduce = 3 ∧
    occ [[1, 1, 1, 2, 3], [1, 4]] 1 = 4 := by decide

end Verif.Vocab
