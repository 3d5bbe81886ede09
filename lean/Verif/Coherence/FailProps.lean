import Verif.Coherence.FailModel
import Verif.Coherence.ParallelProps
import Verif.KeyedVectors.GeomProps

/-!
# C124: parallel accumulation with failing or interrupted processes; coherence from word vectors
-/

namespace Verif.Coherence.Fail

open Verif Verif.Coherence Verif.Coherence.Parallel

variable {W : Type} [DecidableEq W]

/-! ## What a broken worker reports -/

theorem accStep_mono (v : Nat) (s : Acc) (w : Nat × List Nat) :
    (∀ t, s.occ t ≤ (accStep v s w).occ t) ∧ (∀ i j, (accStep v s w).co i j = s.co i j) ∧
      s.numDocs ≤ (accStep v s w).numDocs := by
  unfold accStep countMask slideWindow
  refine ⟨fun t => ?_, fun i j => ?_, ?_⟩ <;> dsimp only <;> split <;> split <;> simp

theorem fold_mono (v : Nat) (ws : List (Nat × List Nat)) (s : Acc) :
    (∀ t, s.occ t ≤ (ws.foldl (accStep v) s).occ t) ∧
      (∀ i j, (ws.foldl (accStep v) s).co i j = s.co i j) ∧
      s.numDocs ≤ (ws.foldl (accStep v) s).numDocs := by
  induction ws generalizing s with
  | nil => simp
  | cons w ws ih =>
    obtain ⟨a1, a2, a3⟩ := accStep_mono v s w
    obtain ⟨b1, b2, b3⟩ := ih (accStep v s w)
    exact ⟨fun t => (a1 t).trans (b1 t), fun i j => (b2 i j).trans (a2 i j), a3.trans b3⟩

theorem broken_le (v k j : Nat) (s : Acc) (docs : List (List Nat)) :
    (∀ t, (brokenAccumulate v k j s docs).occ t ≤ (partialAccumulate v k s docs).occ t) ∧
      (∀ i j', (brokenAccumulate v k j s docs).co i j' = s.co i j') ∧
      (brokenAccumulate v k j s docs).numDocs ≤ (partialAccumulate v k s docs).numDocs := by
  have hw : (iterWindows k docs) = (iterWindows k docs).take j ++ (iterWindows k docs).drop j := by simp
  have h1 := fold_mono v ((iterWindows k docs).drop j) (brokenAccumulate v k j s docs)
  have h2 := fold_mono v ((iterWindows k docs).take j)
    { s with cur := none, edge := none, counter := fun _ _ => 0 }
  have he : ((iterWindows k docs).drop j).foldl (accStep v) (brokenAccumulate v k j s docs)
      = (iterWindows k docs).foldl (accStep v)
        { s with cur := none, edge := none, counter := fun _ _ => 0 } := by
    conv => rhs; rw [hw, List.foldl_append]
    rfl
  rw [he] at h1
  exact ⟨h1.1, h2.2.1, h1.2.2⟩

/-! ## The bounds -/

/-- Counts in the accumulators and those of the waiting batches are at most those of all documents. -/
structure Below (v k n : Nat) (docs : List (List Nat)) (s : St) : Prop where
  occ : ∀ t, ((s.running ++ s.out).map fun a => a.occ t).sum
      + pending k (occBit v t) (s.queue ++ s.toPut) ≤ (masksOf k docs).countP (occBit v t)
  co : ∀ i j, ((s.running ++ s.out).map fun a => a.co i j).sum
      + pending k (pairBit v i j) (s.queue ++ s.toPut) ≤ (masksOf k docs).countP (pairBit v i j)
  num : ((s.running ++ s.out).map fun a => a.numDocs).sum
      + pending k (fun _ => true) (s.queue ++ s.toPut) ≤ (masksOf k docs).length

theorem below_step {v k n : Nat} {docs : List (List Nat)} {s t : St} (h : Below v k n docs s)
    (st : IStep v k n s t) : Below v k n docs t := by
  obtain ⟨ho, hc, hn⟩ := h
  cases st with
  | ok st =>
    cases st with
    | ok st =>
      cases st with
      | put m ms q running out room =>
        refine ⟨fun t => ?_, fun i j => ?_, ?_⟩
        · simpa using ho t
        · simpa using hc i j
        · simpa using hn
      | batch d ms q l r a out =>
        obtain ⟨s1, s2, s3⟩ := partialAccumulate_spec v k a d
        refine ⟨fun t => ?_, fun i j => ?_, ?_⟩
        · have := ho t
          rw [List.cons_append, pending_cons_some] at this
          simp only [List.map_append, List.map_cons, List.sum_append, List.sum_cons, s1] at this ⊢
          omega
        · have := hc i j
          rw [List.cons_append, pending_cons_some] at this
          simp only [List.map_append, List.map_cons, List.sum_append, List.sum_cons, s2] at this ⊢
          omega
        · rw [List.cons_append, pending_cons_some] at hn
          simp only [List.map_append, List.map_cons, List.sum_append, List.sum_cons, s3] at hn ⊢
          simp only [List.countP_true] at hn
          omega
      | stop ms q l r a out =>
        refine ⟨fun t => ?_, fun i j => ?_, ?_⟩
        · have := ho t
          rw [List.cons_append, pending_cons_none] at this
          simp only [List.map_append, List.map_cons, List.map_nil, List.sum_append, List.sum_cons,
            List.sum_nil] at this ⊢
          omega
        · have := hc i j
          rw [List.cons_append, pending_cons_none] at this
          simp only [List.map_append, List.map_cons, List.map_nil, List.sum_append, List.sum_cons,
            List.sum_nil] at this ⊢
          omega
        · rw [List.cons_append, pending_cons_none] at hn
          simp only [List.map_append, List.map_cons, List.map_nil, List.sum_append, List.sum_cons,
            List.sum_nil] at hn ⊢
          omega
    | fail d j ms q l r a out =>
      obtain ⟨s1, s2, s3⟩ := partialAccumulate_spec v k a d
      obtain ⟨b1, b2, b3⟩ := broken_le v k j a d
      refine ⟨fun t => ?_, fun i j' => ?_, ?_⟩
      · have := ho t
        have hb := b1 t
        rw [s1] at hb
        rw [List.cons_append, pending_cons_some] at this
        simp only [List.map_append, List.map_cons, List.map_nil, List.sum_append, List.sum_cons,
            List.sum_nil] at this ⊢
        omega
      · have := hc i j'
        rw [List.cons_append, pending_cons_some] at this
        simp only [List.map_append, List.map_cons, List.map_nil, List.sum_append, List.sum_cons,
            List.sum_nil, b2] at this ⊢
        omega
      · rw [s3] at b3
        rw [List.cons_append, pending_cons_some] at hn
        simp only [List.map_append, List.map_cons, List.map_nil, List.sum_append, List.sum_cons,
            List.sum_nil] at hn ⊢
        simp only [List.countP_true] at hn
        omega
  | master ms q running out hp =>
    refine ⟨fun t => ?_, fun i j => ?_, ?_⟩
    · have := ho t
      dsimp only at this ⊢
      rw [pending_append] at this
      rw [List.append_nil]
      omega
    · have := hc i j
      dsimp only at this ⊢
      rw [pending_append] at this
      rw [List.append_nil]
      omega
    · dsimp only at hn ⊢
      rw [pending_append] at hn
      rw [List.append_nil]
      omega
  | worker ms q l r a out =>
    refine ⟨fun t => ?_, fun i j => ?_, ?_⟩
    · have := ho t
      simp only [List.map_append, List.map_cons, List.map_nil, List.sum_append, List.sum_cons,
            List.sum_nil] at this ⊢
      omega
    · have := hc i j
      simp only [List.map_append, List.map_cons, List.map_nil, List.sum_append, List.sum_cons,
            List.sum_nil] at this ⊢
      omega
    · simp only [List.map_append, List.map_cons, List.map_nil, List.sum_append, List.sum_cons,
            List.sum_nil] at hn ⊢
      omega

theorem below_run {v k n : Nat} {docs : List (List Nat)} {s t : St} (h : Below v k n docs s)
    (st : Run (IStep v k n) s t) : Below v k n docs t := by
  induction st with
  | refl => exact h
  | tail _ st ih => exact below_step ih st

/-- **C124.** Whatever fails or is interrupted: if the parallel accumulator returns at all, it returns without
an error, and no count is larger than the count of the serial accumulator. -/
theorem C124_never_more (rel : List W) (processes batchSize k : Nat) (texts : List (List W)) (s₀ s : St)
    (hs₀ : start rel processes batchSize texts = some s₀)
    (hrun : Run (IStep rel.length k processes) s₀ s) (acc : Acc) (hres : result processes s = some acc) :
    (∀ w x y, acc.occurrences rel w = some x →
      (accumulate rel k Acc.init texts).occurrences rel w = some y → x ≤ y) ∧
    (∀ a b x y, acc.coOccurrences rel a b = some x →
      (accumulate rel k Acc.init texts).coOccurrences rel a b = some y → x ≤ y) ∧
    acc.numDocs ≤ (accumulate rel k Acc.init texts).numDocs := by
  obtain ⟨hinv, hn⟩ := inv_start (k := k) hs₀
  have hb : Below rel.length k processes (iterTexts rel texts) s₀ :=
    ⟨fun t => (hinv.occ t).le, fun i j => (hinv.co i j).le, hinv.num.le⟩
  obtain ⟨ho, hc, hnum⟩ := below_run hb hrun
  unfold result at hres
  by_cases hf : s.toPut.isEmpty ∧ s.out.length = processes
  · rw [if_pos hf] at hres
    cases hres
    obtain ⟨m1, m2, m3⟩ := merge_fold s.out Acc.init
    obtain ⟨p1, p2, p3⟩ := partialAccumulate_spec rel.length k Acc.init (iterTexts rel texts)
    have hocc : ∀ t, (s.out.foldl merge Acc.init).occ t
        ≤ (partialAccumulate rel.length k Acc.init (iterTexts rel texts)).occ t := by
      intro t
      rw [m1, p1]
      have := ho t
      simp only [List.map_append, List.sum_append] at this
      omega
    have hco : ∀ i j, (s.out.foldl merge Acc.init).co i j
        ≤ (partialAccumulate rel.length k Acc.init (iterTexts rel texts)).co i j := by
      intro i j
      rw [m2, p2]
      have := hc i j
      simp only [List.map_append, List.sum_append] at this
      omega
    refine ⟨?_, ?_, ?_⟩
    · intro w x y hx hy
      unfold Acc.occurrences at hx hy
      cases hw : contiguous rel w with
      | none => rw [hw] at hx; cases hx
      | some i =>
        rw [hw] at hx hy
        cases hx
        cases hy
        exact hocc i
    · intro a b x y hx hy
      unfold Acc.coOccurrences at hx hy
      cases hw : contiguous rel a with
      | none => rw [hw] at hx; cases hx
      | some i =>
        cases hw' : contiguous rel b with
        | none => rw [hw, hw'] at hx; cases hx
        | some j =>
          rw [hw, hw'] at hx hy
          cases hx
          cases hy
          unfold mergeAccumulators accumulate symmetrize
          dsimp only
          have h1 := hocc i
          have h2 := hco i j
          have h3 := hco j i
          split <;> omega
    · unfold mergeAccumulators accumulate symmetrize
      dsimp only
      rw [m3, p3]
      simp only [List.map_append, List.sum_append] at hnum
      omega
  · rw [if_neg hf] at hres
    cases hres

/-- **C124** (finding). A failure in a worker is silent and its counts are inconsistent: here the only text has
both words, one worker fails after having counted it, and the accumulator that is returned knows both words
but no document in which they occur together, and counts the document. -/
theorem C124_silent_loss : ∃ s₀ s acc, start [5, 7] 2 1 [[5, 7]] = some s₀ ∧ Run (FStep 2 2 2) s₀ s ∧
    result 2 s = some acc ∧ acc.occurrences [5, 7] 5 = some 1 ∧ acc.occurrences [5, 7] 7 = some 1 ∧
    acc.coOccurrences [5, 7] 5 7 = some 0 ∧ acc.numDocs = 1 ∧
    (accumulate [5, 7] 2 Acc.init [[5, 7]]).coOccurrences [5, 7] 5 7 = some 1 := by
  refine ⟨⟨[some [[0, 1]], none, none], [], [Acc.init, Acc.init], []⟩,
    ⟨[], [none], [], [brokenAccumulate 2 2 1 Acc.init [[0, 1]], Acc.init]⟩, _, rfl, ?_, rfl, ?_⟩
  · exact .tail (.tail (.tail (.tail (.tail (.refl _)
      (.ok (.put _ _ _ _ _ (by decide)))) (.fail _ 1 _ _ [Acc.init] [] _ _))
      (.ok (.put _ _ _ _ _ (by decide)))) (.ok (.put _ _ _ _ _ (by decide))))
      (.ok (.stop _ _ [] [] _ _))
  · refine ⟨?_, ?_, ?_, ?_, ?_⟩ <;> decide +kernel

/-- **C124** (finding). Whatever a worker had counted in the batch in which it fails, the pairs of words seen
in that batch are lost. -/
theorem C124_pairs_lost (v k j : Nat) (a : Acc) (docs : List (List Nat)) :
    (brokenAccumulate v k j a docs).co = a.co :=
  funext fun i => funext fun j' => (broken_le v k j a docs).2.1 i j'

/-! ## Waiting -/

/-- Sentinels wait behind all batches, at least one for each running worker. -/
structure Live (n : Nat) (s : St) : Prop where
  msgs : ∃ (bs : List (List (List Nat))) (m : Nat),
    s.queue ++ s.toPut = bs.map some ++ List.replicate m none ∧ s.running.length ≤ m
  workers : s.running.length + s.out.length = n

theorem live_step {v k n : Nat} {s t : St} (h : Live n s) (st : FStep v k n s t) : Live n t := by
  obtain ⟨⟨bs, m, hm, hr⟩, hw⟩ := h
  cases st with
  | ok st =>
    cases st with
    | put x ms q running out room => exact ⟨⟨bs, m, by simpa using hm, hr⟩, hw⟩
    | batch d ms q l r a out =>
      cases bs with
      | nil =>
        exfalso
        simp only [List.map_nil, List.nil_append, List.cons_append] at hm
        cases m with
        | zero => cases hm
        | succ m => rw [List.replicate_succ] at hm; cases hm
      | cons b bs =>
        simp only [List.map_cons, List.cons_append, List.cons.injEq] at hm
        exact ⟨⟨bs, m, hm.2, by simpa using hr⟩, by simpa using hw⟩
    | stop ms q l r a out =>
      cases bs with
      | cons b bs =>
        simp only [List.map_cons, List.cons_append, List.cons.injEq] at hm
        cases hm.1
      | nil =>
        simp only [List.map_nil, List.nil_append, List.cons_append] at hm
        cases m with
        | zero => cases hm
        | succ m =>
          rw [List.replicate_succ, List.cons.injEq] at hm
          refine ⟨⟨[], m, by simpa using hm.2, ?_⟩, ?_⟩
          · simp at hr ⊢; omega
          · simp at hw ⊢; omega
  | fail d j ms q l r a out =>
    cases bs with
    | nil =>
      exfalso
      simp only [List.map_nil, List.nil_append, List.cons_append] at hm
      cases m with
      | zero => cases hm
      | succ m => rw [List.replicate_succ] at hm; cases hm
    | cons b bs =>
      simp only [List.map_cons, List.cons_append, List.cons.injEq] at hm
      refine ⟨⟨bs, m, hm.2, ?_⟩, ?_⟩
      · simp at hr ⊢; omega
      · simp at hw ⊢; omega

theorem live_start {rel : List W} {n b : Nat} {texts : List (List W)} {s : St}
    (h : start rel n b texts = some s) : Live n s ∧ 2 ≤ n := by
  obtain ⟨hi, hn⟩ := inv_start (k := 0) h
  obtain ⟨bs, hm, _⟩ := hi.msgs
  exact ⟨⟨⟨bs, _, hm, le_refl _⟩, hi.workers⟩, hn⟩

/-- **C124.** As long as one worker has not failed, the computation goes on: when nothing can happen although
the master has not returned, every worker has replied and the master is putting on a full queue. -/
theorem C124_one_survivor (rel : List W) (processes batchSize k : Nat) (texts : List (List W)) (s₀ s : St)
    (hs₀ : start rel processes batchSize texts = some s₀)
    (hrun : Run (FStep rel.length k processes) s₀ s) (hwait : result processes s = none)
    (hstuck : ∀ t, ¬ FStep rel.length k processes s t) :
    s.running = [] ∧ s.out.length = processes ∧ s.toPut ≠ [] ∧ processes ≤ s.queue.length := by
  obtain ⟨hl, hn⟩ := live_start hs₀
  have h : Live processes s := by
    clear hwait hstuck
    induction hrun with
    | refl => exact hl
    | tail _ st ih => exact live_step ih st
  obtain ⟨⟨bs, m, hm, hr⟩, hw⟩ := h
  obtain ⟨toPut, queue, running, out⟩ := s
  dsimp only at hm hr hw ⊢
  have hrun0 : running = [] := by
    cases running with
    | nil => rfl
    | cons a r =>
      exfalso
      cases queue with
      | cons x q =>
        cases x with
        | none => exact hstuck _ (.ok (.stop toPut q [] r a out))
        | some d => exact hstuck _ (.ok (.batch d toPut q [] r a out))
      | nil =>
        cases toPut with
        | cons x ms => exact hstuck _ (.ok (.put x ms [] _ out (by simp; omega)))
        | nil =>
          have := congrArg List.length hm
          simp at this hr
          omega
  subst hrun0
  have hout : out.length = processes := by simpa using hw
  have hput : toPut ≠ [] := by
    rintro rfl
    simp [result, hout] at hwait
  refine ⟨rfl, hout, hput, ?_⟩
  obtain ⟨x, ms, rfl⟩ := List.exists_cons_of_ne_nil hput
  by_contra hlt
  exact hstuck _ (.ok (.put x ms queue [] out (by omega)))

theorem no_worker_none {v k n : Nat} {s t : St} (hr : s.running = [])
    (hq : n < s.queue.length + s.toPut.length) (hrun : Run (FStep v k n) s t) (hn : s.queue.length ≤ n) :
    t.running = [] ∧ n < t.queue.length + t.toPut.length ∧ t.queue.length ≤ n := by
  induction hrun with
  | refl => exact ⟨hr, hq, hn⟩
  | tail _ st ih =>
    obtain ⟨h1, h2, h3⟩ := ih
    cases st with
    | ok st =>
      cases st with
      | put x ms q running out room => exact ⟨h1, by simp at h2 ⊢; omega, by simp at h3 ⊢; omega⟩
      | batch d ms q l r a out => simp at h1
      | stop ms q l r a out => simp at h1
    | fail d j ms q l r a out => simp at h1

theorem fail_all {v k n : Nat} (hn : 0 < n) (ds : List (List (List Nat))) (ms : List Msg) (a : Acc)
    (out : List Acc) :
    ∃ out', Run (FStep v k n) ⟨ds.map some ++ ms, [], List.replicate ds.length a, out⟩ ⟨ms, [], [], out'⟩ := by
  induction ds generalizing out with
  | nil => exact ⟨out, .refl _⟩
  | cons d ds ih =>
    obtain ⟨out', h⟩ := ih (out ++ [brokenAccumulate v k 0 a d])
    refine ⟨out', ?_⟩
    have s1 : FStep v k n ⟨(d :: ds).map some ++ ms, [], List.replicate (d :: ds).length a, out⟩
        ⟨ds.map some ++ ms, [some d], List.replicate (d :: ds).length a, out⟩ :=
      .ok (.put (some d) _ [] _ _ hn)
    have s2 : FStep v k n ⟨ds.map some ++ ms, [some d], List.replicate (d :: ds).length a, out⟩
        ⟨ds.map some ++ ms, [], List.replicate ds.length a, out ++ [brokenAccumulate v k 0 a d]⟩ :=
      .fail d 0 _ [] [] (List.replicate ds.length a) a out
    have trans : ∀ {x y z : St}, Run (FStep v k n) x y → Run (FStep v k n) y z → Run (FStep v k n) x z := by
      intro x y z hxy hyz
      induction hyz with
      | refl => exact hxy
      | tail _ st ih => exact .tail ih st
    exact trans (.tail (.tail (.refl _) s1) s2) h

/-- **C124** (finding). Whenever there are more batches than workers, the workers can fail so that the master
never returns and never raises: it reaches a state from which no run leads to a result. -/
theorem C124_hang (rel : List W) (processes batchSize k : Nat) (texts : List (List W)) (s₀ : St)
    (hs₀ : start rel processes batchSize texts = some s₀)
    (hmany : processes < (yieldBatches batchSize [] (iterTexts rel texts)).length) :
    ∃ s, Run (FStep rel.length k processes) s₀ s ∧
      ∀ t, Run (FStep rel.length k processes) s t → result processes t = none := by
  obtain ⟨_, hn⟩ := live_start hs₀
  unfold start at hs₀
  rw [if_neg (by omega)] at hs₀
  cases hs₀
  generalize hbs : yieldBatches batchSize [] (iterTexts rel texts) = bs at *
  have hlen : (bs.take processes).length = processes := by simp; omega
  obtain ⟨out', h⟩ := fail_all (v := rel.length) (k := k) (n := processes) (by omega) (bs.take processes)
    ((bs.drop processes).map some ++ List.replicate processes none) Acc.init []
  rw [hlen, ← List.append_assoc, ← List.map_append, List.take_append_drop] at h
  refine ⟨_, h, ?_⟩
  intro t ht
  obtain ⟨h1, h2, h3⟩ := no_worker_none (v := rel.length) (k := k) (n := processes) rfl
    (by simp; omega) ht (by simp)
  have : t.toPut ≠ [] := by
    intro he
    rw [he] at h2
    simp at h2
    omega
  unfold result
  rw [if_neg]
  simp [this]

/-- **C124** (finding). If only the master is interrupted while it puts batches, and no worker, it waits for
ever: from then on, whatever the workers do, there is no result. -/
theorem C124_interrupt_hang (rel : List W) (processes batchSize k m : Nat) (texts : List (List W)) (s₀ s : St)
    (hs₀ : start rel processes batchSize texts = some s₀) (hrun : Steps rel.length k processes m s₀ s)
    (hput : processes ≤ s.toPut.length) (hno : s.out = []) :
    IStep rel.length k processes s { s with toPut := [] } ∧
    ∀ m' t, Steps rel.length k processes m' { s with toPut := [] } t → result processes t = none := by
  obtain ⟨hinv, hn⟩ := inv_start (k := k) hs₀
  have h := inv_steps hinv hrun
  obtain ⟨⟨bs, hm, _⟩, hw, _, _, _⟩ := h
  obtain ⟨toPut, queue, running, out⟩ := s
  dsimp only at hm hw hput hno ⊢
  subst hno
  have hrl : running.length = processes := by simpa using hw
  have hq : ∀ x ∈ queue, x ≠ none := by
    have hlen := congrArg List.length hm
    simp only [List.length_append, List.length_map, List.length_replicate] at hlen
    have hqt : queue = (bs.take queue.length).map some := by
      have := congrArg (List.take queue.length) hm
      rw [List.take_left, List.take_append_of_le_length (by simp; omega), ← List.map_take] at this
      exact this
    intro x hx
    rw [hqt] at hx
    obtain ⟨b, _, rfl⟩ := List.mem_map.1 hx
    simp
  refine ⟨.master _ _ _ _ hput, ?_⟩
  intro m' t ht
  have key : ∀ {m' : Nat} {a b : St}, Steps rel.length k processes m' a b → a.toPut = [] →
      (∀ x ∈ a.queue, x ≠ none) → a.out = [] → b.toPut = [] ∧ (∀ x ∈ b.queue, x ≠ none) ∧ b.out = [] := by
    intro m' a b hab
    induction hab with
    | refl _ => exact fun h1 h2 h3 => ⟨h1, h2, h3⟩
    | tail _ st ih =>
      intro h1 h2 h3
      obtain ⟨i1, i2, i3⟩ := ih h1 h2 h3
      cases st with
      | put x ms q running out room => cases i1
      | batch d ms q l r a out => exact ⟨i1, fun x hx => i2 x (List.mem_cons_of_mem _ hx), i3⟩
      | stop ms q l r a out => exact absurd rfl (i2 none (by simp))
  obtain ⟨_, _, ho⟩ := key ht rfl hq rfl
  unfold result
  rw [if_neg]
  rw [ho]
  simp
  omega

/-- The hypotheses of `C124_hang` are met: five texts, batches of one, two workers. -/
example : ∃ s₀, start [5, 7] 2 1 [[5, 7], [5], [7], [7], [5]] = some s₀ ∧
    2 < (yieldBatches 1 [] (iterTexts [5, 7] [[5, 7], [5], [7], [7], [5]])).length :=
  ⟨_, rfl, by decide⟩

/-! ## Coherence from word vectors -/

section W2V

open Verif.KvGeom (Vec Err nSimilarity cosine)

variable {n : ℕ}

/-- The word with an id, if it has a vector. -/
def vecOf (id2token : PyDict Nat W) (kv : PyDict W (Vec n)) (i : Nat) : Option (Vec n) :=
  (PyDict.get? id2token i).bind fun w => PyDict.get? kv w

/-- The vectors of the words of a topic that have one, in order. -/
def known (id2token : PyDict Nat W) (kv : PyDict W (Vec n)) (topic : List Nat) : List (Vec n) :=
  topic.filterMap (vecOf id2token kv)

/-- The cosines between each known word of a topic and the mean vector of all known words of the topic. -/
noncomputable def cosines (id2token : PyDict Nat W) (kv : PyDict W (Vec n)) (topic : List Nat) : List ℝ :=
  (known id2token kv topic).map fun v => cosine v (KvGeom.mean (known id2token kv topic))

theorem words_ok (id2token : PyDict Nat W) (kv : PyDict W (Vec n)) (ids : List Nat)
    (h : ∀ i ∈ ids, (PyDict.get? id2token i).isSome) :
    ∃ ws, wordsWithEmbeddings id2token kv ids = .ok ws ∧
      (∀ w ∈ ws, PyDict.get? kv w = some ((PyDict.get? kv w).getD 0)) ∧
      ws.map (fun w => (PyDict.get? kv w).getD 0) = known id2token kv ids := by
  unfold wordsWithEmbeddings
  have ht : ∃ ts, tokens id2token ids = .ok ts ∧ ts = ids.filterMap (PyDict.get? id2token) := by
    induction ids with
    | nil => exact ⟨[], rfl, rfl⟩
    | cons i ids ih =>
      obtain ⟨ts, h1, h2⟩ := ih (fun j hj => h j (List.mem_cons_of_mem _ hj))
      obtain ⟨w, hw⟩ := Option.isSome_iff_exists.1 (h i (by simp))
      exact ⟨w :: ts, by simp [tokens, hw, h1], by simp [hw, h2]⟩
  obtain ⟨ts, h1, h2⟩ := ht
  rw [h1]
  refine ⟨_, rfl, ?_, ?_⟩
  · intro w hw
    have := (List.mem_filter.1 hw).2
    unfold PyDict.contains at this
    obtain ⟨x, hx⟩ := Option.isSome_iff_exists.1 this
    simp [hx]
  · subst h2
    clear h h1
    unfold known
    induction ids with
    | nil => rfl
    | cons i ids ih =>
      rw [List.filterMap_cons, List.filterMap_cons]
      cases hi : PyDict.get? id2token i with
      | none =>
        have : vecOf id2token kv i = none := by simp [vecOf, hi]
        rw [this]
        exact ih
      | some w =>
        have : vecOf id2token kv i = PyDict.get? kv w := by simp [vecOf, hi]
        rw [this]
        cases hw : PyDict.get? kv w with
        | none =>
          dsimp only
          rw [List.filter_cons_of_neg (by simp [PyDict.contains, hw])]
          exact ih
        | some x =>
          dsimp only
          rw [List.filter_cons_of_pos (by simp [PyDict.contains, hw]), List.map_cons, ih, hw]
          rfl

theorem ids_ok (id2token : PyDict Nat W) (kv : PyDict W (Vec n)) (a b : List Nat)
    (ha : ∀ i ∈ a, (PyDict.get? id2token i).isSome) (hb : ∀ i ∈ b, (PyDict.get? id2token i).isSome) :
    idsSimilarity id2token kv a b =
      if known id2token kv a = [] ∨ known id2token kv b = [] then .error .zeroDiv
      else .ok (cosine (KvGeom.mean (known id2token kv a)) (KvGeom.mean (known id2token kv b))) := by
  obtain ⟨w1, h1, k1, e1⟩ := words_ok id2token kv a ha
  obtain ⟨w2, h2, k2, e2⟩ := words_ok id2token kv b hb
  unfold idsSimilarity
  rw [h1, h2]
  dsimp only
  rw [← e1, ← e2]
  by_cases hn1 : w1 = []
  · subst hn1
    simp [nSimilarity]
  by_cases hn2 : w2 = []
  · subst hn2
    simp [nSimilarity]
  rw [if_neg (by simp [hn1, hn2])]
  exact (KvGeom.C97_n_similarity kv _ w1 w2 k1 k2 hn1 hn2).1

theorem mean_single (v : Vec n) : KvGeom.mean [v] = v := by simp [KvGeom.mean]

theorem segs_ok (id2token : PyDict Nat W) (kv : PyDict W (Vec n)) (topic sub : List Nat)
    (h : ∀ i ∈ topic, (PyDict.get? id2token i).isSome) (hsub : ∀ i ∈ sub, i ∈ topic) :
    segmentSims id2token kv (sub.map fun i => ([i], topic)) =
      .ok ((known id2token kv sub).map fun v => cosine v (KvGeom.mean (known id2token kv topic)),
        sub.countP fun i => (vecOf id2token kv i).isNone) := by
  induction sub with
  | nil => rfl
  | cons i sub ih =>
    have hi := hsub i (by simp)
    have ih := ih (fun j hj => hsub j (List.mem_cons_of_mem _ hj))
    have he := ids_ok id2token kv [i] topic (by simpa using h i hi) h
    cases hv : vecOf id2token kv i with
    | none =>
      have hk : known id2token kv [i] = [] := by simp [known, hv]
      rw [if_pos (Or.inl hk)] at he
      simp only [List.map_cons, segmentSims, he, ih]
      simp [known, hv]
    | some v =>
      have hk : known id2token kv [i] = [v] := by simp [known, hv]
      have hne : known id2token kv topic ≠ [] := by
        intro hnil
        have : v ∈ known id2token kv topic := List.mem_filterMap.2 ⟨i, hi, hv⟩
        rw [hnil] at this
        cases this
      rw [if_neg (by simp [hk, hne]), hk, mean_single] at he
      simp only [List.map_cons, segmentSims, he, ih]
      simp [known, hv]

/-- **C124.** The coherence of each topic from word vectors is the mean, over the words of the topic that have a
vector, of the cosine between the word's vector and the mean vector of these words; the words without a vector
do not matter; the support is the number of words with a vector, and a topic without any has no coherence
(`nan`). There is a warning for each topic with unknown words, with their number; the last warning speaks of
terms but counts topics (finding). -/
theorem C124_w2v (id2token : PyDict Nat W) (kv : PyDict W (Vec n)) (topics : List (List Nat))
    (h : ∀ t ∈ topics, ∀ i ∈ t, (PyDict.get? id2token i).isSome) :
    word2vecSimilarity id2token kv (wrapped topics) = .ok
      (topics.map fun t => (mean (cosines id2token kv t), std (cosines id2token kv t),
        (known id2token kv t).length),
       (topics.map fun t => t.countP fun i => (vecOf id2token kv i).isNone).filter (0 < ·),
       topics.countP fun t => t.any fun i => (vecOf id2token kv i).isNone) := by
  induction topics with
  | nil => rfl
  | cons t ts ih =>
    have ih := ih (fun u hu => h u (List.mem_cons_of_mem _ hu))
    have hs := segs_ok id2token kv t t (h t (by simp)) (fun i hi => hi)
    have hw : wrapped (t :: ts) = (t.map fun i => ([i], t)) :: wrapped ts := by
      simp [wrapped, sOneSet, sOneSetTopic]
    rw [hw]
    unfold word2vecSimilarity
    rw [hs, ih]
    have hany : (t.any fun i => (vecOf id2token kv i).isNone) = true ↔
        0 < t.countP fun i => (vecOf id2token kv i).isNone := by
      rw [List.countP_pos_iff, List.any_eq_true]
    by_cases hp : 0 < t.countP fun i => (vecOf id2token kv i).isNone
    · simp only [hp, if_true, List.map_cons, List.filter_cons, decide_true]
      rw [List.countP_cons_of_pos (by exact hany.2 hp)]
      simp [aggregate, cosines]
    · simp only [hp, if_false, List.map_cons, List.filter_cons, decide_false]
      rw [List.countP_cons_of_neg (by rw [hany]; exact hp)]
      simp [aggregate, cosines]

/-- **C124.** The statistics of a topic are the usual ones: the mean, and the square root of the mean of the
squared deviations; there are none for the empty list. -/
theorem C124_statistics (l : List ℝ) :
    aggregate l = if l = [] then (none, none, 0)
      else (some (l.sum / l.length),
        some (Real.sqrt ((l.map fun x => (x - l.sum / l.length) ^ 2).sum / l.length)), l.length) := by
  by_cases h : l = []
  · simp [aggregate, std, mean, h]
  · simp [aggregate, std, mean, h, pow_two]

/-- **C124** (finding). The coherence of the model is a number exactly when there is a topic and every topic has
a word with a vector: one topic of unknown words makes the coherence of all topics `nan`. -/
theorem C124_w2v_nan (id2token : PyDict Nat W) (kv : PyDict W (Vec n)) (topics : List (List Nat))
    (h : ∀ t ∈ topics, ∀ i ∈ t, (PyDict.get? id2token i).isSome) :
    ∃ c, cW2v id2token kv topics = .ok c ∧
      (c.isSome ↔ topics ≠ [] ∧ ∀ t ∈ topics, ∃ i ∈ t, (vecOf id2token kv i).isSome) := by
  unfold cW2v
  rw [C124_w2v id2token kv topics h]
  refine ⟨_, rfl, ?_⟩
  have hk : ∀ t : List Nat, (mean (cosines id2token kv t)).isSome ↔ ∃ i ∈ t, (vecOf id2token kv i).isSome := by
    intro t
    unfold mean
    by_cases hc : cosines id2token kv t = []
    · rw [if_pos hc]
      simp only [Option.isSome_none, Bool.false_eq_true, false_iff]
      rintro ⟨i, hi, hv⟩
      obtain ⟨v, hv⟩ := Option.isSome_iff_exists.1 hv
      have : v ∈ known id2token kv t := List.mem_filterMap.2 ⟨i, hi, hv⟩
      simp only [cosines, List.map_eq_nil_iff] at hc
      rw [hc] at this
      cases this
    · rw [if_neg hc]
      simp only [Option.isSome_some, true_iff]
      have : known id2token kv t ≠ [] := fun e => hc (by simp [cosines, e])
      obtain ⟨v, vs, hvs⟩ := List.exists_cons_of_ne_nil this
      have : v ∈ known id2token kv t := by rw [hvs]; simp
      obtain ⟨i, hi, hv⟩ := List.mem_filterMap.1 this
      exact ⟨i, hi, by simp [hv]⟩
  simp only [List.map_map]
  unfold arithmeticMean
  have hm : ∀ ts : List (List Nat),
      (∀ t ∈ ts, (mean (cosines id2token kv t)).isSome) →
      ∃ l : List ℝ, l.length = ts.length ∧
        (ts.map ((fun c : Option ℝ × Option ℝ × ℕ => c.1) ∘ fun t => (mean (cosines id2token kv t),
          std (cosines id2token kv t), (known id2token kv t).length))).mapM id = some l := by
    intro ts
    induction ts with
    | nil => exact fun _ => ⟨[], rfl, rfl⟩
    | cons t ts ih =>
      intro hh
      obtain ⟨l, hl1, hl2⟩ := ih (fun u hu => hh u (List.mem_cons_of_mem _ hu))
      obtain ⟨x, hx⟩ := Option.isSome_iff_exists.1 (hh t (by simp))
      refine ⟨x :: l, by simp [hl1], ?_⟩
      rw [List.map_cons, List.mapM_cons, hl2]
      simp [hx]
  have hmn : ∀ ts : List (List Nat), ∀ l : List ℝ,
        (ts.map ((fun c : Option ℝ × Option ℝ × ℕ => c.1) ∘ fun t => (mean (cosines id2token kv t),
          std (cosines id2token kv t), (known id2token kv t).length))).mapM id = some l →
        (∀ t ∈ ts, (mean (cosines id2token kv t)).isSome) ∧ l.length = ts.length := by
    intro ts
    induction ts with
    | nil => intro l hl; cases hl; simp
    | cons t ts ih =>
      intro l hl
      rw [List.map_cons, List.mapM_cons] at hl
      cases hx : mean (cosines id2token kv t) with
      | none => simp [hx] at hl
      | some x =>
        rcases hr : (ts.map ((fun c : Option ℝ × Option ℝ × ℕ => c.1) ∘ fun t => (mean (cosines id2token kv t),
          std (cosines id2token kv t), (known id2token kv t).length))).mapM id with _ | l'
        · rw [hr] at hl; simp [hx] at hl
        · rw [hr] at hl
          simp [hx] at hl
          obtain ⟨i1, i2⟩ := ih l' hr
          refine ⟨?_, ?_⟩
          · intro u hu
            rcases List.mem_cons.1 hu with rfl | hu
            · simp [hx]
            · exact i1 u hu
          · rw [← hl]; simp [i2]
  constructor
  · intro hsome
    rcases hr : (topics.map ((fun c : Option ℝ × Option ℝ × ℕ => c.1) ∘ fun t => (mean (cosines id2token kv t),
          std (cosines id2token kv t), (known id2token kv t).length))).mapM id with _ | l
    · rw [hr] at hsome; simp at hsome
    · obtain ⟨i1, i2⟩ := hmn topics l hr
      refine ⟨?_, fun t ht => (hk t).1 (i1 t ht)⟩
      rintro rfl
      rw [hr] at hsome
      have : l = [] := List.length_eq_zero_iff.1 (by simpa using i2)
      subst this
      simp [mean] at hsome
  · rintro ⟨hne, hall⟩
    obtain ⟨l, hl1, hl2⟩ := hm topics (fun t ht => (hk t).2 (hall t ht))
    rw [hl2]
    have : l ≠ [] := by
      rintro rfl
      exact hne (List.length_eq_zero_iff.1 hl1.symm)
    simp [mean, this]

/-- **C124.** An id the dictionary does not know is a `KeyError`. -/
theorem C124_w2v_key (id2token : PyDict Nat W) (kv : PyDict W (Vec n)) (i : Nat) (rest : List Nat)
    (topics : List (List Nat)) (hi : PyDict.get? id2token i = none) :
    cW2v id2token kv ((i :: rest) :: topics) = .error .key := by
  have hw : wrapped ((i :: rest) :: topics)
      = (([i], i :: rest) :: rest.map fun j => ([j], i :: rest)) :: wrapped topics := by
    simp [wrapped, sOneSet, sOneSetTopic]
  unfold cW2v
  rw [hw]
  simp [word2vecSimilarity, segmentSims, idsSimilarity, wordsWithEmbeddings, tokens, hi]

/-- Three words, two of them with a vector: the hypotheses are met and the topic has support two. -/
example : ∃ (d : PyDict Nat String) (kv : PyDict String (Vec 1)),
    (∀ t ∈ [[0, 1, 2]], ∀ i ∈ t, (PyDict.get? d i).isSome) ∧ (known d kv [0, 1, 2]).length = 2 :=
  ⟨[(0, "a"), (1, "b"), (2, "c")], [("c", 1), ("a", 0)], by decide, rfl⟩

/-- **C124** (finding). A model given by the user is used as it is. Otherwise a model is trained with the
user's arguments, with a default of 1 for `min_count` and `sg` and with the window of the measure — but `hs` is
taken from an argument named `hw` (0 if there is none): the user's `hs` is never used. -/
theorem C124_w2v_kwargs (kwargs : PyDict String Int) (windowSize : Option Int) :
    w2vAccumulate true kwargs windowSize = none ∧
    ∃ kw, w2vAccumulate false kwargs windowSize = some kw ∧
      PyDict.get? kw "window" = windowSize.or (PyDict.get? kwargs "window") ∧
      PyDict.get? kw "min_count" = some ((PyDict.get? kwargs "min_count").getD 1) ∧
      PyDict.get? kw "sg" = some ((PyDict.get? kwargs "sg").getD 1) ∧
      PyDict.get? kw "hs" = some ((PyDict.get? kwargs "hw").getD 0) ∧
      ∀ k, k ∉ ["window", "min_count", "sg", "hs"] → PyDict.get? kw k = PyDict.get? kwargs k := by
  refine ⟨rfl, _, rfl, ?_⟩
  cases windowSize with
  | none =>
    simp only [w2vKwargs, PyDict.get?_set, PyDict.getD]
    refine ⟨by simp, by simp, by simp, by simp, ?_⟩
    intro k hk
    simp only [List.mem_cons, List.not_mem_nil, or_false, not_or] at hk
    simp [hk, Ne.symm hk.2.1, Ne.symm hk.2.2.1, Ne.symm hk.2.2.2, eq_comm]
  | some s =>
    simp only [w2vKwargs, PyDict.get?_set, PyDict.getD]
    refine ⟨by simp, by simp, by simp, by simp, ?_⟩
    intro k hk
    simp only [List.mem_cons, List.not_mem_nil, or_false, not_or] at hk
    simp [hk, Ne.symm hk.1, Ne.symm hk.2.1, Ne.symm hk.2.2.1, Ne.symm hk.2.2.2, eq_comm]

/-- **C124** (finding). `hs=1` trains a model without hierarchical softmax. -/
theorem C124_w2v_hs (kwargs : PyDict String Int) (windowSize : Option Int)
    (hw : PyDict.get? kwargs "hw" = none) (hs : PyDict.get? kwargs "hs" = some 1) :
    ∃ kw, w2vAccumulate false kwargs windowSize = some kw ∧ PyDict.get? kw "hs" = some 0 := by
  obtain ⟨_, kw, h1, _, _, _, h2, _⟩ := C124_w2v_kwargs kwargs windowSize
  exact ⟨kw, h1, by rw [h2, hw]; rfl⟩

end W2V

end Verif.Coherence.Fail
