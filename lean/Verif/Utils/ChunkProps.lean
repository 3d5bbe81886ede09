import Mathlib.Tactic.Common
import Verif.Utils.ChunkModel

/-! Properties C15 (chunking), C16 (background chunking), C58 (transformed corpora). -/

namespace Verif.Chunk

variable {α β : Type}

theorem chunks_nil (k : Nat) : chunks k ([] : List α) = [] := by rw [chunks]; simp

theorem chunks_cons {k : Nat} (hk : 0 < k) {l : List α} (hl : l ≠ []) :
    chunks k l = l.take k :: chunks k (l.drop k) := by
  rw [chunks]
  have : l.take k ≠ [] := by
    intro h
    rcases List.take_eq_nil_iff.mp h with h | h
    · omega
    · exact hl h
  simp [this]

/-- chunk induction -/
theorem chunk_ind {k : Nat} (hk : 0 < k) {P : List α → Prop} (h0 : P [])
    (h1 : ∀ l, l ≠ [] → P (l.drop k) → P l) (l : List α) : P l := by
  induction hn : l.length using Nat.strongRecOn generalizing l with
  | ind n ih =>
    by_cases hl : l = []
    · subst hl; exact h0
    · have h3 := List.length_pos_iff.mpr hl
      exact h1 l hl (ih (l.drop k).length (by rw [List.length_drop]; omega) _ rfl)

/-- **C15.** The chunks in order concatenate to the input. -/
theorem C15_concat {k : Nat} (hk : 0 < k) (l : List α) : (chunks k l).flatten = l := by
  induction l using chunk_ind hk with
  | h0 => simp [chunks_nil]
  | h1 l hl ih => rw [chunks_cons hk hl, List.flatten_cons, ih, List.take_append_drop]

/-- **C15.** Every chunk has between 1 and `chunksize` items, and every chunk that is followed by
another one has exactly `chunksize`. -/
theorem C15_sizes {k : Nat} (hk : 0 < k) (l : List α) :
    (∀ c ∈ chunks k l, 0 < c.length ∧ c.length ≤ k) ∧
    (∀ c ∈ (chunks k l).dropLast, c.length = k) := by
  induction l using chunk_ind hk with
  | h0 => simp [chunks_nil]
  | h1 l hl ih =>
    have h3 := List.length_pos_iff.mpr hl
    rw [chunks_cons hk hl]
    constructor
    · intro c hc
      rcases List.mem_cons.mp hc with rfl | hc
      · rw [List.length_take]; omega
      · exact ih.1 c hc
    · intro c hc
      by_cases hd : l.drop k = []
      · rw [hd, chunks_nil] at hc; simp at hc
      · rw [chunks_cons hk hd, List.dropLast_cons_of_ne_nil (by simp)] at hc
        rcases List.mem_cons.mp hc with rfl | hc
        · have := List.length_pos_iff.mpr hd
          rw [List.length_drop] at this
          rw [List.length_take]; omega
        · rw [← chunks_cons hk hd] at hc
          exact ih.2 c hc

/-- **C15.** The number of chunks is the length divided by `chunksize`, rounded up. -/
theorem C15_count {k : Nat} (hk : 0 < k) (l : List α) : (chunks k l).length = (l.length + k - 1) / k := by
  induction l using chunk_ind hk with
  | h0 => rw [chunks_nil]; simp only [List.length_nil]; rw [Nat.div_eq_of_lt (by omega)]
  | h1 l hl ih =>
    have h3 := List.length_pos_iff.mpr hl
    rw [chunks_cons hk hl, List.length_cons, ih, List.length_drop]
    by_cases h : l.length ≤ k
    · rw [show l.length - k + k - 1 = k - 1 by omega, Nat.div_eq_of_lt (by omega)]
      rw [show l.length + k - 1 = (l.length - 1) + k by omega, Nat.add_div_right _ hk,
        Nat.div_eq_of_lt (by omega)]
    · rw [show l.length + k - 1 = (l.length - k + k - 1) + k by omega, Nat.add_div_right _ hk]

example : chunks 3 [1, 2, 3, 4, 5, 6, 7] = [[1, 2, 3], [4, 5, 6], [7]] := by
  simp [chunks]

/-! ### C16 -/

/-- the chunks sitting in the queue -/
def pending (q : List (Option (List α))) : List (List α) := q.filterMap id

/-- the chunks the producer still has to make -/
def todo (k : Nat) (s : QState α) : List (List α) := if s.prodDone then [] else chunks k s.rest

/-- The invariant of the two processes. -/
structure QInv (k maxsize : Nat) (corpus : List α) (s : QState α) : Prop where
  total : s.out ++ pending s.queue ++ todo k s = chunks k corpus
  bound : s.queue.length ≤ maxsize
  marker : if s.consDone then s.queue = [] ∧ s.prodDone = true
    else if s.prodDone then ∃ q : List (List α), s.queue = q.map some ++ [none]
    else ∃ q : List (List α), s.queue = q.map some

theorem pending_append (a b : List (Option (List α))) : pending (a ++ b) = pending a ++ pending b := by
  simp [pending]

theorem pending_map_some (q : List (List α)) : pending (q.map some) = q := by
  induction q <;> simp_all [pending]

theorem qinv_init (k maxsize : Nat) (corpus : List α) : QInv k maxsize corpus (qinit corpus) :=
  ⟨by simp [qinit, pending, todo], by simp [qinit], by simp [qinit]⟩

theorem qinv_step {k maxsize : Nat} (hk : 0 < k) {corpus : List α} {s t : QState α}
    (h : QInv k maxsize corpus s) (hs : QStep k maxsize s t) : QInv k maxsize corpus t := by
  obtain ⟨h1, h2, h3⟩ := h
  cases hs with
  | produce hp =>
    unfold produce at hp
    split at hp
    · cases hp
    next hnd =>
    split at hp
    · next hlt =>
      have hcd : s.consDone = false := by
        cases hc : s.consDone
        · rfl
        · simp [hc] at h3; exact absurd h3.2 hnd
      simp only [hcd, Bool.false_eq_true, if_false, hnd] at h3
      obtain ⟨q, hq⟩ := h3
      simp only [todo, hnd, if_false, Bool.false_eq_true] at h1
      split at hp
      · next hr =>
        cases hp
        have hrest : s.rest = [] := by
          rcases List.take_eq_nil_iff.mp hr with h | h
          · omega
          · exact h
        rw [hrest, chunks_nil] at h1
        refine ⟨?_, ?_, ?_⟩
        · simp only [todo, if_true, pending_append]
          rw [← h1]; simp [pending]
        · simp; omega
        · simp only [hcd, Bool.false_eq_true, if_false, if_true]; exact ⟨q, by rw [hq]⟩
      · next hr =>
        cases hp
        have hrest : s.rest ≠ [] := by rintro h; rw [h] at hr; simp at hr
        rw [chunks_cons hk hrest] at h1
        refine ⟨?_, ?_, ?_⟩
        · simp only [todo, hnd, if_false, pending_append, Bool.false_eq_true]
          rw [← h1]; simp [pending]
        · simp; omega
        · simp only [hcd, Bool.false_eq_true, if_false, hnd]
          exact ⟨q ++ [s.rest.take k], by rw [hq]; simp⟩
    · cases hp
  | consume hc =>
    unfold consume at hc
    split at hc
    · cases hc
    next hcd =>
    simp only [hcd, Bool.false_eq_true, if_false] at h3
    split at hc
    · cases hc
    · next q hq =>
      cases hc
      rw [hq] at h1 h2
      by_cases hpd : s.prodDone = true
      · simp only [hpd, if_true] at h3
        obtain ⟨q', hq'⟩ := h3
        rw [hq] at hq'
        cases q' with
        | nil =>
          simp only [List.map_nil, List.nil_append, List.cons.injEq, true_and] at hq'
          subst hq'
          refine ⟨?_, by simp, by simp [hpd]⟩
          simpa [pending, todo] using h1
        | cons c q' => simp at hq'
      · simp only [hpd, Bool.false_eq_true, if_false] at h3
        obtain ⟨q', hq'⟩ := h3
        rw [hq] at hq'
        cases q' <;> simp at hq'
    · next c q hq =>
      cases hc
      rw [hq] at h1 h2
      refine ⟨?_, by simp at h2 ⊢; omega, ?_⟩
      · rw [← h1]; simp [pending, todo]
      · simp only [hcd, Bool.false_eq_true, if_false]
        by_cases hpd : s.prodDone = true
        · simp only [hpd, if_true] at h3 ⊢
          obtain ⟨q', hq'⟩ := h3
          rw [hq] at hq'
          cases q' with
          | nil => simp at hq'
          | cons c' q' => simp at hq'; exact ⟨q', hq'.2⟩
        · simp only [hpd, Bool.false_eq_true, if_false] at h3 ⊢
          obtain ⟨q', hq'⟩ := h3
          rw [hq] at hq'
          cases q' with
          | nil => simp at hq'
          | cons c' q' => simp at hq'; exact ⟨q', hq'.2⟩

theorem qinv_steps {k maxsize : Nat} (hk : 0 < k) {corpus : List α} {n : Nat} {t : QState α}
    (h : Steps (QStep k maxsize) (qinit corpus) n t) : QInv k maxsize corpus t := by
  generalize hs : qinit corpus = s at h
  induction h with
  | refl => subst hs; exact qinv_init k maxsize corpus
  | tail _ hr ih => exact qinv_step hk ih hr

/-- **C16 (safety).** Under every interleaving of producer and consumer, what has been yielded is at
any time a prefix of the serial chunks, the queue never exceeds its limit, and when the consumer
finishes it has yielded exactly the serial chunks. -/
theorem C16_same_as_serial {k maxsize : Nat} (hk : 0 < k) (corpus : List α) {n : Nat} {t : QState α}
    (h : Steps (QStep k maxsize) (qinit corpus) n t) :
    t.out <+: chunks k corpus ∧ t.queue.length ≤ maxsize ∧
    (t.consDone = true → t.out = chunks k corpus) := by
  obtain ⟨h1, h2, h3⟩ := qinv_steps hk h
  refine ⟨⟨pending t.queue ++ todo k t, by rw [← List.append_assoc]; exact h1⟩, h2, ?_⟩
  intro hc
  simp only [hc, if_true] at h3
  rw [h3.1] at h1
  simpa [pending, todo, h3.2] using h1

/-- **C16 (no deadlock).** As long as the consumer has not finished, one of the two processes can
move. -/
theorem C16_no_deadlock {k maxsize : Nat} (hk : 0 < k) (hm : 0 < maxsize) (corpus : List α) {n : Nat}
    {t : QState α} (h : Steps (QStep k maxsize) (qinit corpus) n t) (hc : t.consDone = false) :
    ∃ u, QStep k maxsize t u := by
  obtain ⟨_, h2, h3⟩ := qinv_steps hk h
  cases hq : t.queue with
  | cons x q =>
    cases x with
    | none => exact ⟨_, .consume (t := { t with queue := q, consDone := true }) (by simp [consume, hc, hq])⟩
    | some c => exact ⟨_, .consume (t := { t with queue := q, out := t.out ++ [c] }) (by simp [consume, hc, hq])⟩
  | nil =>
    cases hp : t.prodDone with
    | true =>
      simp only [hc, hp, hq, Bool.false_eq_true, if_false, if_true] at h3
      obtain ⟨q, e⟩ := h3
      simp at e
    | false =>
      by_cases hr : t.rest.take k = []
      · exact ⟨_, .produce (t := { t with prodDone := true, queue := t.queue ++ [none] })
          (by simp only [produce, hp, hq, List.length_nil, hm, hr, if_true, Bool.false_eq_true, if_false])⟩
      · exact ⟨_, .produce (t := { t with rest := t.rest.drop k, queue := t.queue ++ [some (t.rest.take k)] })
          (by simp only [produce, hp, hq, List.length_nil, hm, hr, if_true, Bool.false_eq_true, if_false])⟩

/-- work left: two moves per chunk to make, one per queued item -/
def work (k : Nat) (s : QState α) : Nat :=
  (if s.prodDone then 0 else 2 * (chunks k s.rest).length + 2) + s.queue.length

theorem work_step {k maxsize : Nat} (hk : 0 < k) {s t : QState α} (h : QStep k maxsize s t) :
    work k t + 1 = work k s := by
  cases h with
  | produce hp =>
    unfold produce at hp
    split at hp
    · cases hp
    next hnd =>
    split at hp
    · split at hp
      · next hr =>
        cases hp
        have hrest : s.rest = [] := by
          rcases List.take_eq_nil_iff.mp hr with h | h
          · omega
          · exact h
        simp [work, hnd, hrest, chunks_nil]; omega
      · next hr =>
        cases hp
        have hrest : s.rest ≠ [] := by rintro h; rw [h] at hr; simp at hr
        have := chunks_cons hk hrest
        simp only [work, hnd, this, List.length_append, List.length_cons, List.length_nil]
        simp; omega
    · cases hp
  | consume hc =>
    unfold consume at hc
    split at hc
    · cases hc
    split at hc
    · cases hc
    · next q hq => cases hc; simp only [work, hq, List.length_cons]; omega
    · next c q hq => cases hc; simp only [work, hq, List.length_cons]; omega

/-- **C16 (termination).** No run takes more than two moves per chunk plus two, so with C16_no_deadlock
every run ends with the consumer finished. -/
theorem C16_terminates {k maxsize : Nat} (hk : 0 < k) (corpus : List α) {n : Nat} {t : QState α}
    (h : Steps (QStep k maxsize) (qinit corpus) n t) : n ≤ 2 * (chunks k corpus).length + 2 := by
  have key : ∀ {s t : QState α} {n}, Steps (QStep k maxsize) s n t → work k t + n = work k s := by
    intro s t n h
    induction h with
    | refl => simp
    | tail _ hr ih => have := work_step hk hr; omega
  have := key h
  simp [work, qinit] at this
  omega

/-- a complete run exists -/
example : ∃ n t, Steps (QStep 2 1) (qinit [1, 2, 3]) n t ∧ t.consDone = true ∧ t.out = [[1, 2], [3]] := by
  refine ⟨6, ⟨[], true, [], [[1, 2], [3]], true⟩, ?_, rfl, rfl⟩
  refine .tail (.tail (.tail (.tail (.tail (.tail (.refl _) (.produce (t := ⟨[3], false, [some [1, 2]], [], false⟩) ?_))
    (.consume (t := ⟨[3], false, [], [[1, 2]], false⟩) ?_)) (.produce (t := ⟨[], false, [some [3]], [[1, 2]], false⟩) ?_))
    (.consume (t := ⟨[], false, [], [[1, 2], [3]], false⟩) ?_)) (.produce (t := ⟨[], true, [none], [[1, 2], [3]], false⟩) ?_))
    (.consume ?_) <;> decide

/-- **C16, negative.** If iterating the corpus raises inside the background process, the end marker
is never sent: there is a run into a state where the consumer has not finished and nobody can ever
move again. -/
theorem C16_producer_failure_hangs (k maxsize : Nat) (corpus : List α) :
    ∃ n t, Steps (QStepCrash k maxsize) (qinit corpus) n t ∧ t.consDone = false ∧
      ∀ u, ¬ QStepCrash k maxsize t u := by
  refine ⟨1, { qinit corpus with prodDone := true }, .tail (.refl _) (.crash rfl), rfl, ?_⟩
  intro u h
  cases h with
  | step h =>
    cases h with
    | produce h => simp [produce] at h
    | consume h => simp [consume, qinit] at h
  | crash h => simp at h

/-! ### C58 -/

/-- **C58.** For a model whose chunk transformation is document-wise, a chunked transformed corpus
yields the same documents in the same order as an unchunked one, and random access agrees with
iteration. -/
theorem C58_chunked_same (one : α → β) (many : List α → List β) (hm : ∀ l, many l = l.map one)
    (chunksize : Option Nat) (corpus : List α) :
    transformedIter one many chunksize corpus = corpus.map one ∧
    ∀ i, transformedGet one corpus i = (transformedIter one many chunksize corpus)[i]? := by
  have key : transformedIter one many chunksize corpus = corpus.map one := by
    unfold transformedIter
    cases chunksize with
    | none => rfl
    | some k =>
      by_cases hk : k = 0
      · simp [hk]
      · simp only [hk, if_false]
        have : (chunks k corpus).map many = (chunks k corpus).map (List.map one) :=
          List.map_congr_left (fun l _ => hm l)
        rw [this, ← List.map_flatten, C15_concat (by omega)]
  refine ⟨key, fun i => ?_⟩
  rw [key, List.getElem?_map]; rfl

/-- **C15.** Reading a transformed corpus in chunks of any size gives what reading it document by document gives. -/
theorem C15_transformed_same (one : α → β) (many : List α → List β) (hm : ∀ l, many l = l.map one)
    (k : Nat) (corpus : List α) :
    transformedIter one many (some k) corpus = transformedIter one many none corpus := by
  rw [(C58_chunked_same one many hm (some k) corpus).1, (C58_chunked_same one many hm none corpus).1]

example : transformedIter (· + 1) (List.map (· + 1)) (some 2) [1, 2, 3] = [2, 3, 4] := by
  simp [transformedIter, chunks]

end Verif.Chunk
