import Verif.W2V.FileTrainModel
import Mathlib.Tactic.Ring
import Mathlib.Tactic.Linarith
import Mathlib.Tactic.FieldSimp
import Mathlib.Algebra.BigOperators.Group.List.Basic
import Mathlib.Algebra.Order.BigOperators.Group.List
import Mathlib.Data.List.Induction
import Mathlib.Data.Rat.Defs
import Mathlib.Algebra.Order.Ring.Rat

/-!
# C127: training from a file
-/

namespace Verif.FileTrain

variable {K : Type} [Field K] [LinearOrder K] [IsStrictOrderedRing K]

/-! ## Learning rates -/

/-- The total of some batches. -/
def total (bs : List Batch) : Batch :=
  ⟨(bs.map Batch.sentences).sum, (bs.map Batch.words).sum, (bs.map Batch.effective).sum⟩

/-- The number of batches a thread trains on: up to the first one before which it has its share. -/
def trained (over : Nat → Bool) : Nat → List Batch → List Batch
  | _, [] => []
  | w, b :: bs => if over w then [] else b :: trained over (w + b.words) bs

theorem threadLoop_eq (over : Nat → Bool) (next : Nat → Nat → K) (alpha : K) (t : Batch) (bs : List Batch) :
    let tr := trained over t.words bs
    (threadLoop over next alpha t bs).2
        = ⟨t.sentences + (total tr).sentences, t.words + (total tr).words, t.effective + (total tr).effective⟩ ∧
    (threadLoop over next alpha t bs).1.length = tr.length ∧
    ∀ (i : Nat) (h : i < (threadLoop over next alpha t bs).1.length),
      (threadLoop over next alpha t bs).1[i]
        = if i = 0 then alpha
          else next (t.sentences + (total (tr.take i)).sentences) (t.words + (total (tr.take i)).words) := by
  induction bs generalizing alpha t with
  | nil => simp [threadLoop, trained, total]
  | cons b bs ih =>
    unfold threadLoop trained
    by_cases ho : over t.words
    · simp [ho, total]
    · simp only [ho]
      obtain ⟨h1, h2, h3⟩ := ih (next (t.sentences + b.sentences) (t.words + b.words))
        ⟨t.sentences + b.sentences, t.words + b.words, t.effective + b.effective⟩
      refine ⟨?_, ?_, ?_⟩
      · simp only [Bool.false_eq_true, if_false]
        rw [h1]
        simp [total, Nat.add_assoc]
      · simp only [Bool.false_eq_true, if_false, List.length_cons]
        rw [h2]
      · intro i hi
        cases i with
        | zero => rfl
        | succ i =>
          simp only [Bool.false_eq_true, if_false, List.getElem_cons_succ]
          rw [h3]
          by_cases h0 : i = 0
          · subst h0
            simp [total]
          · simp [h0, total, Nat.add_assoc]

/-- What a thread has read at a time, as a part of the announced amount: examples if their number was given, otherwise
words. -/
def part (s : Session K) (b : Batch) : K :=
  match s.totalExamples, s.totalWords with
  | some n, _ => (b.sentences : K) / (n : K)
  | none, some n => (b.words : K) / (n : K)
  | none, none => 0

/-- The rate for which the schedule stands: linear from `alpha` at the beginning to `min_alpha` at the end of the last epoch,
never below it. -/
def rateAt (s : Session K) (cur : Nat) (progress : K) : K :=
  max s.minAlpha (s.alpha - (s.alpha - s.minAlpha) * (((cur : K) + progress) / (s.epochs : K)))

theorem next_eq (s : Session K) (cur : Nat) (b : Batch) (h : s.totalExamples ≠ none ∨ s.totalWords ≠ none) :
    getNextAlpha s.alpha s.minAlpha b.sentences b.words (expected s.totalExamples) (expected s.totalWords) cur s.epochs
      = rateAt s cur (part s b) := by
  unfold getNextAlpha rateAt part
  cases he : s.totalExamples with
  | some n =>
    have : ((n : Int) ≠ -1) := by omega
    simp [expected, this]
  | none =>
    cases hw : s.totalWords with
    | none => simp [he, hw] at h
    | some n => simp [expected]

/-- **C127.** The rate of each batch of a thread comes from what this thread alone has read of the whole file: the first batch of
an epoch has the rate of the beginning of the epoch, a later one that of its part of the announced amount. -/
theorem C127_rates (d : Division) (s : Session K) (cur : Nat) (batches : List Batch)
    (hle : s.minAlpha ≤ s.alpha) (hcur : cur < s.epochs)
    (h : s.totalExamples ≠ none ∨ s.totalWords ≠ none) :
    let tr := trained (overShare d (expected s.totalWords) s.workers) 0 batches
    (threadEpoch d s cur batches).2 = total tr ∧
    (threadEpoch d s cur batches).1
      = (List.range tr.length).map fun i => rateAt s cur (if i = 0 then 0 else part s (total (tr.take i))) := by
  intro tr
  obtain ⟨h1, h2, h3⟩ := threadLoop_eq (overShare d (expected s.totalWords) s.workers)
    (fun ex ws => getNextAlpha s.alpha s.minAlpha ex ws (expected s.totalExamples) (expected s.totalWords) cur s.epochs)
    (getAlpha s.alpha s.minAlpha cur s.epochs) ⟨0, 0, 0⟩ batches
  have hE : (0 : K) < (s.epochs : K) := by
    have : 0 < s.epochs := by omega
    exact_mod_cast this
  refine ⟨?_, ?_⟩
  · unfold threadEpoch
    rw [h1]
    simp [tr]
  · apply List.ext_getElem
    · unfold threadEpoch
      rw [h2]
      simp [tr]
    · intro i hi hi'
      unfold threadEpoch at hi ⊢
      rw [h3]
      simp only [List.getElem_map, List.getElem_range]
      by_cases h0 : i = 0
      · subst h0
        simp only [if_true]
        unfold getAlpha rateAt
        rw [max_eq_right]
        · rw [add_zero, mul_div_assoc]
        · rw [add_zero]
          have hc : (cur : K) / (s.epochs : K) ≤ 1 := by
            rw [div_le_one hE]
            exact_mod_cast hcur.le
          nlinarith [mul_le_mul_of_nonneg_left hc (sub_nonneg.2 hle)]
      · simp only [h0, if_false, Nat.zero_add]
        exact next_eq s cur (total (tr.take i)) h

theorem part_nonneg (s : Session K) (b : Batch) : 0 ≤ part s b := by
  unfold part
  split <;> positivity

theorem part_mono (s : Session K) (a b : Batch) (h1 : a.sentences ≤ b.sentences) (h2 : a.words ≤ b.words) :
    part s a ≤ part s b := by
  unfold part
  split
  · apply div_le_div_of_nonneg_right _ (by positivity)
    exact_mod_cast h1
  · apply div_le_div_of_nonneg_right _ (by positivity)
    exact_mod_cast h2
  · exact le_refl _

theorem rateAt_anti (s : Session K) (hle : s.minAlpha ≤ s.alpha) (cur cur' : Nat) (p q : K)
    (h : (cur : K) + p ≤ (cur' : K) + q) : rateAt s cur' q ≤ rateAt s cur p := by
  unfold rateAt
  apply max_le_max (le_refl _)
  have : ((cur : K) + p) / (s.epochs : K) ≤ ((cur' : K) + q) / (s.epochs : K) :=
    div_le_div_of_nonneg_right h (by positivity)
  nlinarith [mul_le_mul_of_nonneg_left this (sub_nonneg.2 hle)]

theorem total_take_mono (l : List Batch) (i j : Nat) (h : i ≤ j) :
    (total (l.take i)).sentences ≤ (total (l.take j)).sentences ∧ (total (l.take i)).words ≤ (total (l.take j)).words := by
  have hs : l.take i <+: l.take j := by
    rw [List.prefix_take_iff]
    exact ⟨List.take_prefix _ _, by simp; omega⟩
  obtain ⟨r, hr⟩ := hs
  rw [← hr]
  simp [total]

/-- **C127.** The rates stay between `min_alpha` and `alpha` and never rise while a thread works on an epoch. -/
theorem C127_bounds (d : Division) (s : Session K) (cur : Nat) (batches : List Batch)
    (hle : s.minAlpha ≤ s.alpha) (hcur : cur < s.epochs)
    (h : s.totalExamples ≠ none ∨ s.totalWords ≠ none) :
    (∀ a ∈ (threadEpoch d s cur batches).1, s.minAlpha ≤ a ∧ a ≤ s.alpha) ∧
    (threadEpoch d s cur batches).1.Pairwise (fun a b => b ≤ a) := by
  have hr := (C127_rates d s cur batches hle hcur h).2
  rw [hr]
  refine ⟨?_, ?_⟩
  · intro a ha
    obtain ⟨i, _, rfl⟩ := List.mem_map.1 ha
    refine ⟨le_max_left _ _, ?_⟩
    have h0 : rateAt s 0 0 = s.alpha := by
      unfold rateAt
      simp [hle]
    rw [← h0]
    apply rateAt_anti s hle
    have : 0 ≤ (if i = 0 then (0 : K) else part s (total ((trained (overShare d (expected s.totalWords) s.workers) 0
        batches).take i))) := by
      split
      · exact le_refl _
      · exact part_nonneg s _
    have hc : (0 : K) ≤ (cur : K) := by positivity
    push_cast
    linarith
  · rw [List.pairwise_map]
    refine List.Pairwise.imp ?_ List.pairwise_lt_range
    intro i j hij
    apply rateAt_anti s hle
    have hj : j ≠ 0 := by omega
    rw [if_neg hj]
    split
    · have := part_nonneg s (total ((trained (overShare d (expected s.totalWords) s.workers) 0 batches).take j))
      linarith
    · have hm := total_take_mono (trained (overShare d (expected s.totalWords) s.workers) 0 batches) i j hij.le
      have := part_mono s _ _ hm.1 hm.2
      linarith

/-- **C127 (finding).** A thread that reads only a part `f` of the announced amount in each epoch — one of several workers —
never gets below `min_alpha + (alpha - min_alpha)·(1 - f)/epochs`: the rate does not decay to `min_alpha`, and falls
by a jump where the next epoch begins. -/
theorem C127_floor (d : Division) (s : Session K) (cur : Nat) (batches : List Batch) (f : K)
    (hle : s.minAlpha ≤ s.alpha) (hcur : cur < s.epochs)
    (h : s.totalExamples ≠ none ∨ s.totalWords ≠ none) (hf : 0 ≤ f)
    (hpart : part s (threadEpoch d s cur batches).2 ≤ f) :
    ∀ a ∈ (threadEpoch d s cur batches).1,
      s.minAlpha + (s.alpha - s.minAlpha) * (1 - f) / (s.epochs : K) ≤ a := by
  obtain ⟨ht, hr⟩ := C127_rates d s cur batches hle hcur h
  rw [hr]
  rw [ht] at hpart
  intro a ha
  obtain ⟨i, hi, rfl⟩ := List.mem_map.1 ha
  have hE : (0 : K) < (s.epochs : K) := by
    have : 0 < s.epochs := by omega
    exact_mod_cast this
  have hp : (if i = 0 then (0 : K) else part s (total ((trained (overShare d (expected s.totalWords) s.workers) 0
        batches).take i))) ≤ f := by
    split
    · exact hf
    · refine le_trans (part_mono s _ _ ?_ ?_) hpart
      · have := (total_take_mono (trained (overShare d (expected s.totalWords) s.workers) 0 batches) i
          (trained (overShare d (expected s.totalWords) s.workers) 0 batches).length
          (List.mem_range.1 hi).le).1
        rwa [List.take_length] at this
      · have := (total_take_mono (trained (overShare d (expected s.totalWords) s.workers) 0 batches) i
          (trained (overShare d (expected s.totalWords) s.workers) 0 batches).length
          (List.mem_range.1 hi).le).2
        rwa [List.take_length] at this
  refine le_trans ?_ (le_max_right _ _)
  have hc : (cur : K) + 1 ≤ (s.epochs : K) := by exact_mod_cast hcur
  set p := (if i = 0 then (0 : K) else part s (total ((trained (overShare d (expected s.totalWords) s.workers) 0
        batches).take i))) with hpdef
  have h1 : ((cur : K) + p) / (s.epochs : K) ≤ ((s.epochs : K) - (1 - f)) / (s.epochs : K) :=
    div_le_div_of_nonneg_right (by linarith) hE.le
  have h2 : ((s.epochs : K) - (1 - f)) / (s.epochs : K) = 1 - (1 - f) / (s.epochs : K) := by
    field_simp
  rw [h2] at h1
  have h3 := mul_le_mul_of_nonneg_left h1 (sub_nonneg.2 hle)
  have h4 : (s.alpha - s.minAlpha) * (1 - f) / (s.epochs : K) = (s.alpha - s.minAlpha) * ((1 - f) / (s.epochs : K)) := by
    ring
  rw [h4]
  linarith

/-- **C127.** A thread that has read all of the announced amount ends the last epoch at `min_alpha`: the schedule is the one of
training from sentences only with one worker. -/
theorem C127_full (s : Session K) (cur : Nat) (b : Batch) (hcur : cur + 1 = s.epochs)
    (h : s.totalExamples ≠ none ∨ s.totalWords ≠ none) (hle : s.minAlpha ≤ s.alpha) (hp : 1 ≤ part s b) :
    getNextAlpha s.alpha s.minAlpha b.sentences b.words (expected s.totalExamples) (expected s.totalWords) cur s.epochs
      = s.minAlpha := by
  rw [next_eq s cur b h]
  unfold rateAt
  apply max_eq_left
  have hE : (0 : K) < (s.epochs : K) := by
    have : 0 < s.epochs := by omega
    exact_mod_cast this
  have h1 : 1 ≤ ((cur : K) + part s b) / (s.epochs : K) := by
    rw [le_div_iff₀ hE, one_mul, ← hcur]
    push_cast
    linarith
  nlinarith [mul_le_mul_of_nonneg_left h1 (sub_nonneg.2 hle)]

/-! ## The share of the words -/

/-- **C127 (finding).** If only `total_examples` is given — the documentation asks for one of the two — the share of words is
negative: with one worker, or with real division, no batch is trained on. -/
theorem C127_no_total_words (d : Division) (s : Session K) (cur : Nat) (batches : List Batch)
    (h : s.totalWords = none) (hw : 0 < s.workers) (hd : d = .real ∨ s.workers = 1) :
    threadEpoch d s cur batches = ([], ⟨0, 0, 0⟩) := by
  have ho : overShare d (expected s.totalWords) s.workers 0 = true := by
    rw [h]
    unfold overShare expected
    cases d with
    | real => simp
    | c =>
      rcases hd with hd | hd
      · cases hd
      · rw [hd]
        decide
  unfold threadEpoch
  cases batches with
  | nil => rfl
  | cons b bs =>
    unfold threadLoop
    rw [ho]
    simp

/-- **C127 (finding).** With C division and several workers each thread then stops after its first batch with a word. -/
theorem C127_one_batch (s : Session K) (cur : Nat) (b : Batch) (batches : List Batch)
    (h : s.totalWords = none) (hw : 2 ≤ s.workers) (hb : 0 < b.words) :
    threadEpoch .c s cur (b :: batches) = ([getAlpha s.alpha s.minAlpha cur s.epochs], b) := by
  have hz : Int.tdiv (-1) (s.workers : Int) = 0 := by
    rw [Int.neg_tdiv, Int.tdiv_eq_ediv_of_nonneg (by decide), Int.ediv_eq_zero_of_lt (by decide) (by omega)]
    rfl
  have ho : ∀ w : Nat, overShare .c (expected s.totalWords) s.workers w = decide (0 < w) := by
    intro w
    rw [h]
    unfold overShare expected
    simp [hz]
  unfold threadEpoch
  unfold threadLoop
  rw [ho]
  simp only [Nat.lt_irrefl, decide_false, Bool.false_eq_true, if_false, Nat.zero_add]
  cases batches with
  | nil => rfl
  | cons c bs =>
    unfold threadLoop
    rw [ho]
    simp [hb]

/-! ## Totals -/

/-- The sums of some reports: trained words, raw words, reports. -/
def sums (rs : List Batch) : Nat × Nat × Nat :=
  ((rs.map Batch.effective).sum, (rs.map Batch.words).sum, rs.length)

theorem consume_all (ms : List (Option Batch)) (n : Nat) (acc : Nat × Nat × Nat)
    (hn : ms.countP Option.isNone = n) (hlast : ms = [] ∨ ms.getLast? = some none) :
    consume n acc ms = some (acc.1 + (sums (ms.filterMap id)).1, acc.2.1 + (sums (ms.filterMap id)).2.1,
      acc.2.2 + (sums (ms.filterMap id)).2.2) := by
  induction ms generalizing n acc with
  | nil =>
    simp at hn
    subst hn
    simp [consume, sums]
  | cons m ms ih =>
    have hl : ms = [] ∨ ms.getLast? = some none := by
      rcases hlast with hlast | hlast
      · cases hlast
      · cases ms with
        | nil => exact Or.inl rfl
        | cons a as => right; simpa [List.getLast?_cons_cons] using hlast
    cases m with
    | none =>
      obtain ⟨n', rfl⟩ : ∃ n', n = n' + 1 := ⟨ms.countP Option.isNone, by rw [← hn]; simp⟩
      have hn' : ms.countP Option.isNone = n' := by simpa using hn
      unfold consume
      rw [ih n' acc hn' hl]
      simp
    | some b =>
      have hn' : ms.countP Option.isNone = n := by simpa using hn
      have hne : ms ≠ [] := by
        intro h
        subst h
        simp at hlast
      have hpos : 0 < n := by
        rw [← hn']
        apply List.countP_pos_iff.2
        rcases hl with hl | hl
        · exact absurd hl hne
        · exact ⟨none, List.mem_of_getLast? hl, rfl⟩
      obtain ⟨n', rfl⟩ : ∃ n', n = n' + 1 := ⟨n - 1, by omega⟩
      unfold consume
      rw [ih (n' + 1) _ hn' hl]
      simp [sums]
      omega

/-- The messages on the queue are an interleaving of those of the threads: those of each thread are in its order. -/
def Interleaving (workers : Nat) (results : Nat → Option Batch) (queue : List (Nat × Option Batch)) : Prop :=
  (∀ m ∈ queue, m.1 < workers) ∧
  ∀ i < workers, (queue.filter fun m => m.1 = i).map Prod.snd = threadMessages (results i)

theorem count_split {α : Type} (n : Nat) (l : List (Nat × α)) (h : ∀ m ∈ l, m.1 < n) :
    l.Perm ((List.range n).flatMap fun i => l.filter fun m => m.1 = i) := by
  classical
  induction l with
  | nil => simp
  | cons a l ih =>
    have ih := ih fun m hm => h m (List.mem_cons_of_mem _ hm)
    have ha := h a (by simp)
    have key : ∀ k, k ≤ n → ((List.range k).flatMap fun i => (a :: l).filter fun m => m.1 = i).Perm
        ((if a.1 < k then [a] else []) ++ (List.range k).flatMap fun i => l.filter fun m => m.1 = i) := by
      intro k hk
      induction k with
      | zero => simp
      | succ k ihk =>
        have ihk := ihk (by omega)
        rw [List.range_succ, List.flatMap_append, List.flatMap_append]
        simp only [List.flatMap_cons, List.flatMap_nil, List.append_nil]
        refine (ihk.append_right _).trans ?_
        rw [List.filter_cons]
        by_cases hak : a.1 = k
        · have h1 : ¬ a.1 < k := by omega
          have h2 : a.1 < k + 1 := by omega
          simp only [h1, h2, hak, if_false, if_true, decide_true, List.nil_append]
          simp only [Nat.lt_irrefl, Nat.lt_succ_self, if_true, if_false, List.nil_append, List.singleton_append]
          exact List.perm_middle
        · by_cases h1 : a.1 < k
          · have h2 : a.1 < k + 1 := by omega
            simp [h1, h2, hak]
          · have h2 : ¬ a.1 < k + 1 := by omega
            simp [h1, h2, hak]
    refine (List.Perm.cons a ih).trans ?_
    have := key n (Nat.le_refl n)
    rw [if_pos ha] at this
    exact this.symm

theorem interleaving_perm {workers : Nat} {results : Nat → Option Batch} {queue : List (Nat × Option Batch)}
    (h : Interleaving workers results queue) :
    (queue.map Prod.snd).Perm ((List.range workers).flatMap fun i => threadMessages (results i)) := by
  have := (count_split workers queue h.1).map Prod.snd
  rw [List.map_flatMap] at this
  refine this.trans ?_
  rw [List.flatMap_congr]
  intro i hi
  exact h.2 i (List.mem_range.1 hi)

/-- **C127.** If no thread fails, an epoch returns the sums over the threads, whatever the order in which their messages
arrive. -/
theorem C127_totals (workers : Nat) (results : Nat → Batch) (queue : List (Nat × Option Batch))
    (h : Interleaving workers (fun i => some (results i)) queue) :
    consume workers (0, 0, 0) (queue.map Prod.snd) = some (sums ((List.range workers).map results)) := by
  have hp := interleaving_perm h
  have hc : (queue.map Prod.snd).countP Option.isNone = workers := by
    rw [hp.countP_eq]
    clear hp h
    induction workers with
    | zero => rfl
    | succ n ih =>
      rw [List.range_succ, List.flatMap_append, List.countP_append, ih]
      simp [threadMessages]
  have hl : queue.map Prod.snd = [] ∨ (queue.map Prod.snd).getLast? = some none := by
    rcases List.eq_nil_or_concat queue with hq | ⟨q, m, hq⟩
    · left; simp [hq]
    · right
      subst hq
      have hm := h.1 m (by simp)
      have := h.2 m.1 hm
      rw [List.concat_eq_append, List.filter_append, List.map_append] at this
      simp only [decide_true, List.filter_cons, List.filter_nil, if_true, List.map_cons, List.map_nil,
        threadMessages] at this
      have h2 := congrArg List.getLast? this
      simp at h2
      simp [h2]
  rw [consume_all _ workers (0, 0, 0) hc hl]
  have hf : ((queue.map Prod.snd).filterMap id).Perm ((List.range workers).map results) := by
    refine (hp.filterMap id).trans ?_
    rw [List.filterMap_flatMap]
    simp only [threadMessages]
    have : (fun i => List.filterMap id [some (results i), none]) = fun i => [results i] := by
      funext i
      simp
    rw [this]
    clear hc hl hp h this
    induction workers with
    | zero => simp
    | succ n ih =>
      rw [List.range_succ, List.flatMap_append, List.map_append]
      exact ih.append_right _
  unfold sums
  simp only [Nat.zero_add]
  rw [(hf.map _).sum_eq, (hf.map _).sum_eq, hf.length_eq]

theorem consume_short (ms : List (Option Batch)) (n : Nat) (acc : Nat × Nat × Nat)
    (hn : ms.countP Option.isNone < n) : consume n acc ms = none := by
  induction ms generalizing n acc with
  | nil =>
    obtain ⟨n', rfl⟩ : ∃ n', n = n' + 1 := ⟨n - 1, by omega⟩
    rfl
  | cons m ms ih =>
    obtain ⟨n', rfl⟩ : ∃ n', n = n' + 1 := ⟨n - 1, by omega⟩
    cases m with
    | none =>
      unfold consume
      apply ih
      simp at hn
      omega
    | some b =>
      unfold consume
      apply ih
      simpa using hn

/-- **C127 (finding).** If a thread fails, `train` never returns: it waits for the thread forever. -/
theorem C127_hangs (workers : Nat) (results : Nat → Option Batch) (queue : List (Nat × Option Batch))
    (h : Interleaving workers results queue) (i : Nat) (hi : i < workers) (hfail : results i = none) :
    consume workers (0, 0, 0) (queue.map Prod.snd) = none := by
  apply consume_short
  rw [(interleaving_perm h).countP_eq]
  have h1 : ∀ k, ((List.range k).flatMap fun i => threadMessages (results i)).countP Option.isNone
      ≤ k - (if i < k then 1 else 0) := by
    intro k
    induction k with
    | zero => simp
    | succ k ih =>
      rw [List.range_succ, List.flatMap_append, List.countP_append]
      simp only [List.flatMap_cons, List.flatMap_nil, List.append_nil]
      by_cases hk : k = i
      · subst hk
        have he : (threadMessages (results k)).countP Option.isNone = 0 := by rw [hfail]; rfl
        rw [he]
        simpa using ih
      · have hle : (threadMessages (results k)).countP Option.isNone ≤ 1 := by
          cases results k <;> simp [threadMessages]
        by_cases hik : i < k
        · have : i < k + 1 := by omega
          simp only [hik, this, if_true] at ih ⊢
          omega
        · have : ¬ i < k + 1 := by omega
          simp only [hik, this, if_false] at ih ⊢
          omega
  have := h1 workers
  simp only [hi, if_true] at this
  omega

/-- **C127.** `train` returns the sums over all threads and epochs. -/
theorem C127_train (workers : Nat) (results : List (Nat → Batch)) (queues : List (List (Nat × Option Batch)))
    (h : List.Forall₂ (fun r q => Interleaving workers (fun i => some (r i)) q) results queues) :
    trainTotals workers (0, 0) (queues.map (List.map Prod.snd))
      = some ((results.map fun r => ((List.range workers).map fun i => (r i).effective).sum).sum,
              (results.map fun r => ((List.range workers).map fun i => (r i).words).sum).sum) := by
  have key : ∀ acc : Nat × Nat, trainTotals workers acc (queues.map (List.map Prod.snd))
      = some (acc.1 + (results.map fun r => ((List.range workers).map fun i => (r i).effective).sum).sum,
              acc.2 + (results.map fun r => ((List.range workers).map fun i => (r i).words).sum).sum) := by
    induction h with
    | nil => intro acc; simp [trainTotals]
    | cons hq _ ih =>
      intro acc
      rw [List.map_cons]
      unfold trainTotals
      rw [C127_totals workers _ _ hq]
      simp only [ih]
      simp [sums, Function.comp_def, Nat.add_assoc]
  simpa using key (0, 0)

/-! ## The training loss -/

/-- The stores of a schedule, in order. -/
def stores (sched : List Event) : List Nat :=
  sched.filterMap fun e => match e with
    | .store i => some i
    | .load _ => none

/-- One thread at a time: each job reads the loss and stores it before the next one begins. -/
def serial (jobs : List Nat) : List Event := jobs.flatMap fun i => [.load i, .store i]

omit [LinearOrder K] [IsStrictOrderedRing K] in
/-- **C127.** With one worker the loss is the sum of the losses of the jobs. -/
theorem C127_loss_serial (own : Nat → K) (jobs : List Nat) :
    finalLoss own (serial jobs) = (jobs.map own).sum := by
  have key : ∀ s : LossState K, ((serial jobs).foldl (lossStep own) s).loss = s.loss + (jobs.map own).sum := by
    induction jobs with
    | nil => intro s; simp [serial]
    | cons j js ih =>
      intro s
      have : serial (j :: js) = .load j :: .store j :: serial js := rfl
      rw [this, List.foldl_cons, List.foldl_cons, ih]
      simp [lossStep]
      ring
  unfold finalLoss
  rw [key]
  simp

/-- Each job reads before it stores, and stores once. -/
def Valid (sched : List Event) : Prop :=
  (stores sched).Nodup ∧ ∀ pre i post, sched = pre ++ .store i :: post → Event.load i ∈ pre

omit [IsStrictOrderedRing K] in
/-- The loss, and what a job has read, are each the sum of the losses of some of the jobs stored before. -/
theorem loss_chain (own : Nat → K) (sched : List Event) (hv : Valid sched) :
    (∃ l : List Nat, l.Sublist (stores sched) ∧ (sched.foldl (lossStep own) ⟨0, fun _ => 0⟩).loss = (l.map own).sum ∧
      ∀ i, (stores sched).getLast? = some i → i ∈ l) ∧
    ∀ i, Event.load i ∈ sched →
      ∃ l : List Nat, l.Sublist (stores sched) ∧ (sched.foldl (lossStep own) ⟨0, fun _ => 0⟩).read i = (l.map own).sum := by
  induction sched using List.reverseRecOn with
  | nil => exact ⟨⟨[], List.Sublist.refl _, by simp, by simp [stores]⟩, by simp⟩
  | append_singleton sched e ih =>
    have hv' : Valid sched := by
      refine ⟨?_, fun pre i post h => ?_⟩
      · have := hv.1
        unfold stores at this ⊢
        rw [List.filterMap_append] at this
        exact (List.nodup_append.1 this).1
      · exact hv.2 pre i (post ++ [e]) (by rw [h]; simp)
    obtain ⟨⟨l, h1, h2, h3⟩, h4⟩ := ih hv'
    rw [List.foldl_append, List.foldl_cons, List.foldl_nil]
    cases e with
    | load i =>
      have hs : stores (sched ++ [.load i]) = stores sched := by simp [stores]
      rw [hs]
      refine ⟨⟨l, h1, h2, h3⟩, fun j hj => ?_⟩
      by_cases hji : j = i
      · subst hji
        exact ⟨l, h1, by simpa [lossStep] using h2⟩
      · have hj' : Event.load j ∈ sched := by
          rcases List.mem_append.1 hj with hj | hj
          · exact hj
          · simp [hji] at hj
        obtain ⟨l', a, b⟩ := h4 j hj'
        exact ⟨l', a, by simpa [lossStep, hji] using b⟩
    | store i =>
      have hs : stores (sched ++ [.store i]) = stores sched ++ [i] := by simp [stores]
      rw [hs]
      have hl := hv.2 sched i [] rfl
      obtain ⟨l', a, b⟩ := h4 i hl
      refine ⟨⟨l' ++ [i], a.append (List.Sublist.refl _), ?_, ?_⟩, fun j hj => ?_⟩
      · simp [lossStep, b]
      · intro j hj
        simp at hj
        subst hj
        simp
      · have hj' : Event.load j ∈ sched := by
          rcases List.mem_append.1 hj with hj | hj
          · exact hj
          · simp at hj
        obtain ⟨l'', a', b'⟩ := h4 j hj'
        exact ⟨l'', a'.trans (List.sublist_append_left _ _), by simpa [lossStep] using b'⟩

/-- **C127.** With several workers the loss reported is the sum of the losses of some of the jobs, among them the last one
stored: never more than the sum of all of them, if the losses are not negative. -/
theorem C127_loss (own : Nat → K) (hown : ∀ i, 0 ≤ own i) (sched : List Event) (hv : Valid sched) :
    (∃ l : List Nat, l.Sublist (stores sched) ∧ finalLoss own sched = (l.map own).sum) ∧
    finalLoss own sched ≤ ((stores sched).map own).sum ∧
    ∀ i, (stores sched).getLast? = some i → own i ≤ finalLoss own sched := by
  obtain ⟨⟨l, h1, h2, h3⟩, _⟩ := loss_chain own sched hv
  refine ⟨⟨l, h1, h2⟩, ?_, ?_⟩
  · unfold finalLoss
    rw [h2]
    exact (h1.map own).sum_le_sum (by
      intro x hx
      obtain ⟨i, _, rfl⟩ := List.mem_map.1 hx
      exact hown i)
  · intro i hi
    unfold finalLoss
    rw [h2]
    exact List.single_le_sum (by
      intro x hx
      obtain ⟨j, _, rfl⟩ := List.mem_map.1 hx
      exact hown j) _ (List.mem_map.2 ⟨i, h3 i hi, rfl⟩)

omit [LinearOrder K] [IsStrictOrderedRing K] in
/-- **C127 (finding).** If all workers begin before one of them ends — every epoch from a file — the loss of the epoch is that of
the last of them alone. -/
theorem C127_loss_lost (own : Nat → K) (jobs : List Nat) (last : Nat) (hl : last ∈ jobs)
    (order : List Nat) :
    finalLoss own (jobs.map .load ++ order.map .store ++ [.store last]) = own last := by
  have hload : ∀ (js : List Nat) (s : LossState K), s.loss = 0 →
      ((js.map Event.load).foldl (lossStep own) s).loss = 0 ∧
      ∀ j, j ∈ js ∨ s.read j = 0 → ((js.map Event.load).foldl (lossStep own) s).read j = 0 := by
    intro js
    induction js with
    | nil => intro s hs; exact ⟨hs, fun j hj => by simpa using hj⟩
    | cons a js ih =>
      intro s hs
      rw [List.map_cons, List.foldl_cons]
      obtain ⟨i1, i2⟩ := ih (lossStep own s (.load a)) (by simpa [lossStep] using hs)
      refine ⟨i1, fun j hj => i2 j ?_⟩
      by_cases hja : j = a
      · right; simp [lossStep, hja, hs]
      · rcases hj with hj | hj
        · left; exact (List.mem_cons.1 hj).resolve_left hja
        · right; simpa [lossStep, hja] using hj
  have hstore : ∀ (os : List Nat) (s : LossState K), ((os.map Event.store).foldl (lossStep own) s).read = s.read := by
    intro os
    induction os with
    | nil => intro s; rfl
    | cons a os ih =>
      intro s
      rw [List.map_cons, List.foldl_cons, ih]
      rfl
  unfold finalLoss
  rw [List.foldl_append, List.foldl_append, List.foldl_cons, List.foldl_nil]
  simp only [lossStep]
  rw [hstore, (hload jobs _ rfl).2 last (Or.inl hl), zero_add]

/-! ## Non-vacuity -/

/-- Four workers, each with a quarter of 400 sentences, in the last of two epochs. -/
example : ∃ s : Session ℚ, s.minAlpha < s.alpha ∧ s.workers = 4 ∧
    part s ⟨100, 1000, 900⟩ = 1 / 4 ∧
    (threadEpoch .real s 1 [⟨50, 500, 450⟩, ⟨50, 500, 450⟩]).1 = [3 / 5, 11 / 20] := by
  refine ⟨⟨1, 1 / 5, 2, 4, some 400, some 4000⟩, by norm_num, rfl, by norm_num [part], ?_⟩
  norm_num [threadEpoch, threadLoop, overShare, expected, getAlpha, getNextAlpha]

example : Valid [.load 0, .load 1, .store 1, .load 2, .store 0, .store 2] := by
  refine ⟨by decide, ?_⟩
  intro pre i post h
  rcases pre with _ | ⟨a, _ | ⟨b, _ | ⟨c, _ | ⟨d, _ | ⟨e, _ | ⟨f, pre⟩⟩⟩⟩⟩⟩ <;> simp at h <;> grind

example : Interleaving 2 (fun i => some ⟨i, i, i⟩)
    [(1, some ⟨1, 1, 1⟩), (0, some ⟨0, 0, 0⟩), (1, none), (0, none)] := by
  refine ⟨by simp, ?_⟩
  intro i hi
  rcases i with _ | _ | i
  · rfl
  · rfl
  · omega

end Verif.FileTrain
