import Verif.Coherence.ParallelModel
import Verif.Coherence.WindowProps

/-!
# C53: parallel accumulation equals serial accumulation under every schedule
-/

namespace Verif.Coherence.Parallel

variable {W : Type} [DecidableEq W]

theorem yieldBatches_flatten {α : Type} (size : Nat) (batch ts : List α) :
    (yieldBatches size batch ts).flatten = batch ++ ts := by
  induction ts generalizing batch with
  | nil => cases batch <;> simp [yieldBatches]
  | cons t ts ih =>
    unfold yieldBatches
    split
    · simp [ih]
    · rw [ih]
      simp

theorem masksOf_append (k : Nat) (a b : List (List Nat)) :
    masksOf k (a ++ b) = masksOf k a ++ masksOf k b := by simp [masksOf]

/-- Contribution of the messages that are still to be processed. -/
def pending (k : Nat) (p : (Nat → Bool) → Bool) (ms : List Msg) : Nat :=
  (ms.map fun m => (masksOf k (m.getD [])).countP p).sum

theorem pending_append (k : Nat) (p : (Nat → Bool) → Bool) (a b : List Msg) :
    pending k p (a ++ b) = pending k p a + pending k p b := by simp [pending]

theorem pending_batches (k : Nat) (p : (Nat → Bool) → Bool) (bs : List (List (List Nat))) :
    pending k p (bs.map some) = (masksOf k bs.flatten).countP p := by
  induction bs with
  | nil => rfl
  | cons b bs ih =>
    rw [List.flatten_cons, masksOf_append, List.countP_append, ← ih]
    simp [pending]

theorem pending_none (k : Nat) (p : (Nat → Bool) → Bool) (n : Nat) :
    pending k p (List.replicate n none) = 0 := by
  induction n with
  | zero => rfl
  | succ n ih => simpa [pending, List.replicate_succ, masksOf] using ih

/-- The invariant: sentinels wait behind all batches, one for each running worker; no worker has
stopped while a batch is waiting; and counts in the accumulators plus the counts of the waiting
batches are those of all documents. -/
structure Inv (v k n : Nat) (docs : List (List Nat)) (s : St) : Prop where
  msgs : ∃ bs : List (List (List Nat)),
    s.queue ++ s.toPut = bs.map some ++ List.replicate s.running.length none ∧
      (bs = [] ∨ s.out = [])
  workers : s.running.length + s.out.length = n
  occ : ∀ t, ((s.running ++ s.out).map fun a => a.occ t).sum
      + pending k (occBit v t) (s.queue ++ s.toPut) = (masksOf k docs).countP (occBit v t)
  co : ∀ i j, ((s.running ++ s.out).map fun a => a.co i j).sum
      + pending k (pairBit v i j) (s.queue ++ s.toPut) = (masksOf k docs).countP (pairBit v i j)
  num : ((s.running ++ s.out).map fun a => a.numDocs).sum
      + pending k (fun _ => true) (s.queue ++ s.toPut) = (masksOf k docs).length

theorem inv_start {rel : List W} {n b k : Nat} {texts : List (List W)} {s : St}
    (h : start rel n b texts = some s) :
    Inv rel.length k n (iterTexts rel texts) s ∧ 2 ≤ n := by
  unfold start at h
  by_cases hn : n < 2
  · simp [hn] at h
  · rw [if_neg hn] at h
    cases h
    have hs : ∀ f : Acc → Nat, f Acc.init = 0 →
        (((List.replicate n Acc.init) ++ []).map f).sum = 0 := by
      intro f hf
      simp [hf]
    have hp : ∀ p, pending k p ([] ++ ((yieldBatches b [] (iterTexts rel texts)).map some
        ++ List.replicate n none)) = (masksOf k (iterTexts rel texts)).countP p := by
      intro p
      rw [List.nil_append, pending_append, pending_batches, pending_none, yieldBatches_flatten]
      simp
    refine ⟨⟨⟨yieldBatches b [] (iterTexts rel texts), by simp, Or.inr rfl⟩, by simp, ?_, ?_, ?_⟩, by omega⟩
    · intro t
      dsimp only
      rw [hp, hs _ rfl]
      omega
    · intro i j
      dsimp only
      rw [hp, hs _ rfl]
      omega
    · dsimp only
      rw [hp, hs _ rfl]
      simp

theorem pending_cons_some (k : Nat) (p : (Nat → Bool) → Bool) (docs : List (List Nat))
    (ms : List Msg) :
    pending k p (some docs :: ms) = (masksOf k docs).countP p + pending k p ms := by
  simp [pending]

theorem pending_cons_none (k : Nat) (p : (Nat → Bool) → Bool) (ms : List Msg) :
    pending k p (none :: ms) = pending k p ms := by
  simp [pending, masksOf]

theorem inv_step {v k n : Nat} {docs : List (List Nat)} {s t : St} (h : Inv v k n docs s)
    (st : Step v k n s t) : Inv v k n docs t := by
  obtain ⟨⟨bs, hm, hb⟩, hw, ho, hc, hn⟩ := h
  cases st with
  | put m ms q running out room =>
    refine ⟨⟨bs, ?_, hb⟩, hw, ?_, ?_, ?_⟩
    · simpa using hm
    · intro t
      simpa using ho t
    · intro i j
      simpa using hc i j
    · simpa using hn
  | batch d ms q l r a out =>
    obtain ⟨s1, s2, s3⟩ := partialAccumulate_spec v k a d
    cases bs with
    | nil =>
      exfalso
      dsimp only at hm
      rw [List.map_nil, List.nil_append] at hm
      have hlen : (l ++ a :: r).length = (l.length + r.length) + 1 := by simp; omega
      rw [hlen, List.replicate_succ, List.cons_append] at hm
      have := (List.cons.inj hm).1
      cases this
    | cons b bs =>
      have hout : out = [] := by simpa using hb
      subst hout
      dsimp only at hm hw ho hc hn
      rw [List.map_cons, List.cons_append, List.cons_append, List.cons.injEq] at hm
      refine ⟨⟨bs, ?_, Or.inr rfl⟩, ?_, ?_, ?_, ?_⟩
      · simpa using hm.2
      · simpa using hw
      · intro t
        have := ho t
        rw [List.cons_append, pending_cons_some] at this
        simp only [List.append_nil, List.map_append, List.map_cons, List.sum_append, List.sum_cons,
          s1] at this ⊢
        omega
      · intro i j
        have := hc i j
        rw [List.cons_append, pending_cons_some] at this
        simp only [List.append_nil, List.map_append, List.map_cons, List.sum_append, List.sum_cons,
          s2] at this ⊢
        omega
      · rw [List.cons_append, pending_cons_some] at hn
        simp only [List.append_nil, List.map_append, List.map_cons, List.sum_append, List.sum_cons,
          s3] at hn ⊢
        simp only [List.countP_true] at hn
        omega
  | stop ms q l r a out =>
    have hbs : bs = [] := by
      cases bs with
      | nil => rfl
      | cons b bs =>
        dsimp only at hm
        rw [List.map_cons, List.cons_append, List.cons_append, List.cons.injEq] at hm
        cases hm.1
    subst hbs
    dsimp only at hm hw ho hc hn
    have hlen : (l ++ a :: r).length = (l ++ r).length + 1 := by simp; omega
    refine ⟨⟨[], ?_, Or.inl rfl⟩, ?_, ?_, ?_, ?_⟩
    · rw [List.map_nil, List.nil_append, hlen, List.replicate_succ, List.cons_append,
        List.cons.injEq] at hm
      simpa using hm.2
    · rw [hlen] at hw
      simp only [List.length_append, List.length_singleton] at hw ⊢
      omega
    · intro t
      have := ho t
      rw [List.cons_append, pending_cons_none] at this
      simp only [List.map_append, List.map_cons, List.map_nil, List.sum_append, List.sum_cons,
        List.sum_nil] at this ⊢
      omega
    · intro i j
      have := hc i j
      rw [List.cons_append, pending_cons_none] at this
      simp only [List.map_append, List.map_cons, List.map_nil, List.sum_append, List.sum_cons,
        List.sum_nil] at this ⊢
      omega
    · rw [List.cons_append, pending_cons_none] at hn
      simp only [List.map_append, List.map_cons, List.map_nil, List.sum_append, List.sum_cons,
        List.sum_nil] at hn ⊢
      omega

theorem inv_steps {v k n m : Nat} {docs : List (List Nat)} {s t : St} (h : Inv v k n docs s)
    (st : Steps v k n m s t) : Inv v k n docs t := by
  induction st with
  | refl _ => exact h
  | tail _ st ih => exact inv_step (ih h) st

theorem merge_fold (accs : List Acc) (s : Acc) :
    (∀ t, (accs.foldl merge s).occ t = s.occ t + (accs.map fun a => a.occ t).sum) ∧
    (∀ i j, (accs.foldl merge s).co i j = s.co i j + (accs.map fun a => a.co i j).sum) ∧
    (accs.foldl merge s).numDocs = s.numDocs + (accs.map fun a => a.numDocs).sum := by
  induction accs generalizing s with
  | nil => simp
  | cons a accs ih =>
    obtain ⟨h1, h2, h3⟩ := ih (merge s a)
    refine ⟨fun t => ?_, fun i j => ?_, ?_⟩
    · rw [List.foldl_cons, h1]
      simp [merge]
      omega
    · rw [List.foldl_cons, h2]
      simp [merge]
      omega
    · rw [List.foldl_cons, h3]
      simp [merge]
      omega

/-- **C53.** For every number of processes and batch size, and every interleaving of the master and
the workers, whenever the parallel accumulator returns, its occurrence counts, co-occurrence counts
and number of windows are those of the serial accumulator, for every query. -/
theorem C53_parallel_eq_serial (rel : List W) (processes batchSize k : Nat) (texts : List (List W))
    (s₀ s : St) (hs₀ : start rel processes batchSize texts = some s₀) (m : Nat)
    (hrun : Steps rel.length k processes m s₀ s) (acc : Acc)
    (hres : result processes s = some acc) :
    (∀ w, acc.occurrences rel w = (accumulate rel k Acc.init texts).occurrences rel w) ∧
      (∀ a b, acc.coOccurrences rel a b
        = (accumulate rel k Acc.init texts).coOccurrences rel a b) ∧
      acc.numDocs = (accumulate rel k Acc.init texts).numDocs := by
  obtain ⟨hinv, hn⟩ := inv_start (k := k) hs₀
  have h := inv_steps hinv hrun
  unfold result at hres
  by_cases hf : s.toPut.isEmpty ∧ s.out.length = processes
  · rw [if_pos hf] at hres
    cases hres
    obtain ⟨⟨bs, hm, hb⟩, hw, ho, hc, hnum⟩ := h
    have hrl : s.running.length = 0 := by omega
    have hr : s.running = [] := List.length_eq_zero_iff.1 hrl
    have hbs : bs = [] := by
      rcases hb with hb | hb
      · exact hb
      · rw [hb] at hf
        simp only [List.length_nil] at hf
        omega
    rw [hr] at ho hc hnum
    rw [hbs, hrl] at hm
    simp only [List.map_nil, List.replicate_zero, List.append_nil] at hm
    rw [hm] at ho hc hnum
    obtain ⟨m1, m2, m3⟩ := merge_fold s.out Acc.init
    obtain ⟨p1, p2, p3⟩ := partialAccumulate_spec rel.length k Acc.init (iterTexts rel texts)
    have hocc : ∀ t, (s.out.foldl merge Acc.init).occ t
        = (partialAccumulate rel.length k Acc.init (iterTexts rel texts)).occ t := by
      intro t
      rw [m1, p1]
      have := ho t
      simp only [List.nil_append, pending, List.map_nil, List.sum_nil] at this
      omega
    have hco : ∀ i j, (s.out.foldl merge Acc.init).co i j
        = (partialAccumulate rel.length k Acc.init (iterTexts rel texts)).co i j := by
      intro i j
      rw [m2, p2]
      have := hc i j
      simp only [List.nil_append, pending, List.map_nil, List.sum_nil] at this
      omega
    refine ⟨?_, ?_, ?_⟩
    · intro w
      unfold Acc.occurrences mergeAccumulators accumulate symmetrize
      have : (s.out.foldl merge Acc.init).occ
          = (partialAccumulate rel.length k Acc.init (iterTexts rel texts)).occ := funext hocc
      simp only [this]
    · intro a b
      unfold Acc.coOccurrences mergeAccumulators accumulate symmetrize
      simp only [hocc, hco]
    · unfold mergeAccumulators accumulate symmetrize
      dsimp only
      rw [m3, p3]
      simp only [List.nil_append, pending, List.map_nil, List.sum_nil] at hnum
      omega
  · rw [if_neg hf] at hres
    cases hres

/-- **C53.** No interleaving deadlocks: unless the master can return, some process can act. -/
theorem C53_no_deadlock (rel : List W) (processes batchSize k : Nat) (texts : List (List W))
    (s₀ s : St) (hs₀ : start rel processes batchSize texts = some s₀) (m : Nat)
    (hrun : Steps rel.length k processes m s₀ s) (hwait : result processes s = none) :
    ∃ t, Step rel.length k processes s t := by
  obtain ⟨hinv, hn⟩ := inv_start (k := k) hs₀
  have h := inv_steps hinv hrun
  obtain ⟨⟨bs, hm, hb⟩, hw, _, _, _⟩ := h
  obtain ⟨toPut, queue, running, out⟩ := s
  dsimp only at hm hb hw
  cases queue with
  | nil =>
    cases toPut with
    | cons m ms => exact ⟨_, Step.put m ms [] running out (by simp; omega)⟩
    | nil =>
      exfalso
      have hr : running.length = 0 := by
        have := congrArg List.length hm
        simp only [List.append_nil, List.length_nil, List.length_append, List.length_map,
          List.length_replicate] at this
        omega
      simp [result] at hwait
      omega
  | cons m q =>
    cases m with
    | none =>
      cases running with
      | nil =>
        exfalso
        rw [List.length_nil, List.replicate_zero, List.append_nil] at hm
        cases bs with
        | nil => simp at hm
        | cons b bs => simp at hm
      | cons a r => exact ⟨_, Step.stop toPut q [] r a out⟩
    | some d =>
      cases running with
      | nil =>
        exfalso
        cases bs with
        | nil => simp at hm
        | cons b bs =>
          have : out = [] := by simpa using hb
          subst this
          simp at hw
          omega
      | cons a r => exact ⟨_, Step.batch d toPut q [] r a out⟩

/-- **C53.** Every interleaving is finite: it takes at most two steps per message. -/
theorem C53_terminates (v k processes : Nat) (s t : St) (m : Nat)
    (hrun : Steps v k processes m s t) : m ≤ 2 * s.toPut.length + s.queue.length := by
  have key : m + (2 * t.toPut.length + t.queue.length) ≤ 2 * s.toPut.length + s.queue.length := by
    induction hrun with
    | refl _ => simp
    | tail _ st ih =>
      cases st <;> simp only [List.length_cons, List.length_append, List.length_nil] at ih ⊢ <;>
        omega
  omega

/-- **C53.** Fewer than two processes are refused. -/
theorem C53_needs_two (rel : List W) (processes batchSize : Nat) (texts : List (List W)) :
    start rel processes batchSize texts = none ↔ processes < 2 := by
  unfold start
  split <;> simp_all

/-- One complete run with two workers and two batches, one worker doing all the work. -/
theorem C53_example_run : ∃ s₀ s, start [5, 7] 2 1 [[5, 7], [1], [7]] = some s₀ ∧
    Steps 2 2 2 8 s₀ s ∧
    ((result 2 s).bind fun acc => acc.occurrences [5, 7] 7) = some 2 ∧
    ((result 2 s).bind fun acc => acc.coOccurrences [5, 7] 5 7) = some 1 := by
  refine ⟨⟨[some [[0, 1]], some [[1]], none, none], [], [Acc.init, Acc.init], []⟩,
    ⟨[], [], [], [partialAccumulate 2 2 (partialAccumulate 2 2 Acc.init [[0, 1]]) [[1]],
      Acc.init]⟩, rfl, ?_, ?_, ?_⟩
  · refine .tail (.tail (.tail (.tail (.tail (.tail (.tail (.tail (.refl _)
      (.put _ _ _ _ _ (by decide))) (.put _ _ _ _ _ (by decide)))
      (.batch _ _ _ [Acc.init] [] _ _)) (.batch _ _ _ [Acc.init] [] _ _))
      (.put _ _ _ _ _ (by decide))) (.put _ _ _ _ _ (by decide)))
      (.stop _ _ [Acc.init] [] _ _)) (.stop _ _ [] [] _ _)
  · decide +kernel
  · decide +kernel

end Verif.Coherence.Parallel
