import Mathlib.Tactic.Common
import Mathlib.Data.List.Perm.Basic
import Verif.Utils.ChunkModel
import Verif.W2V.TrainModel

/-!
# C29: training threads — every job is trained exactly once, the totals are exact, no deadlock

The producer, the workers and the consumer of `_train_epoch` run in any interleaving.
-/

namespace Verif.W2V

variable {J : Type}

/-- the sum of a quantity over a list -/
def tot {β : Type} (f : β → Nat) (l : List β) : Nat := (l.map f).sum

section tot
variable {β : Type} (f : β → Nat)
theorem tot_nil : tot f [] = 0 := rfl
theorem tot_cons (x : β) (l : List β) : tot f (x :: l) = f x + tot f l := rfl
theorem tot_append (a b : List β) : tot f (a ++ b) = tot f a + tot f b := by simp [tot]
theorem tot_map {γ : Type} (g : γ → β) (l : List γ) : tot f (l.map g) = tot (fun x => f (g x)) l := by
  simp [tot, Function.comp_def]
theorem tot_replicate (n : Nat) (x : β) : tot f (List.replicate n x) = n * f x := by simp [tot]
theorem tot_zero {f : β → Nat} (l : List β) (h : ∀ x ∈ l, f x = 0) : tot f l = 0 := by
  induction l with
  | nil => rfl
  | cons x l ih =>
    rw [tot_cons, h x List.mem_cons_self, ih (fun y hy => h y (List.mem_cons_of_mem _ hy))]
theorem tot_le_length {f : β → Nat} (h : ∀ x, f x ≤ 1) (l : List β) : tot f l ≤ l.length := by
  induction l with
  | nil => exact Nat.le_refl _
  | cons x l ih => rw [tot_cons]; have := h x; simp only [List.length_cons]; omega
theorem tot_all {f : β → Nat} (h : ∀ x, f x ≤ 1) (l : List β) (e : tot f l = l.length) : ∀ x ∈ l, f x = 1 := by
  induction l with
  | nil => simp
  | cons x l ih =>
    rw [tot_cons] at e
    have h1 := h x
    have h2 := tot_le_length h l
    simp only [List.length_cons] at e
    intro y hy
    rcases List.mem_cons.mp hy with rfl | hy
    · omega
    · exact ih (by omega) y hy
end tot

def wHand (p : J → Nat) : Wk J → Nat
  | .busy j => p j
  | _ => 0
def wTrained (f : J × Nat → Nat) : Wk J → Nat
  | .trained j n => f (j, n)
  | _ => 0
def wFin : Wk J → Nat
  | .closing => 1
  | .done => 1
  | _ => 0
def wDone : Wk J → Nat
  | .done => 1
  | _ => 0
def oSum {β : Type} (f : β → Nat) : Option β → Nat
  | some x => f x
  | none => 0
def oNone {β : Type} : Option β → Nat
  | some _ => 0
  | none => 1

structure EInv (raw : J → Nat) (w : Nat) (js : List J) (s : Epoch J) : Prop where
  jobs : ∀ p : J → Nat, tot (fun x => p x.1) s.log + tot (wHand p) s.workers + tot (oSum p) s.jobQ + tot (oSum p) s.rest
    = tot p js
  queue : ∃ (ks : List J) (k : Nat), s.jobQ ++ s.rest = ks.map some ++ List.replicate k none ∧
    k + tot wFin s.workers = w ∧ (0 < tot wFin s.workers → ks = [])
  nTrained : s.trainedWords + tot (oSum Prod.snd) s.progQ + tot (wTrained Prod.snd) s.workers = tot Prod.snd s.log
  nRaw : s.rawWords + tot (oSum (fun x => raw x.1)) s.progQ + tot (wTrained (fun x => raw x.1)) s.workers =
    tot (fun x => raw x.1) s.log
  nJobs : s.tally + tot (oSum (fun _ => 1)) s.progQ + tot (wTrained (fun _ => 1)) s.workers = tot (fun _ => 1) s.log
  marks : tot wDone s.workers + s.unfinished = w + tot oNone s.progQ
  len : s.workers.length = w
  last : s.progQ = [] ∨ (∃ q, s.progQ = q ++ [none]) ∨ ∃ x ∈ s.workers, wDone x = 0

theorem eInv_init (raw : J → Nat) (w : Nat) (js : List J) : EInv raw w js (epochInit w js) := by
  refine ⟨?_, ⟨js, w, rfl, ?_, ?_⟩, ?_, ?_, ?_, ?_, ?_, .inl rfl⟩
  · intro p
    simp [epochInit, tot_nil, tot_append, tot_replicate, tot_map, wHand, oSum]
  · simp [epochInit, tot_replicate, wFin]
  · simp [epochInit, tot_replicate, wFin]
  · simp [epochInit, tot_replicate, tot_nil, wTrained]
  · simp [epochInit, tot_replicate, tot_nil, wTrained]
  · simp [epochInit, tot_replicate, tot_nil, wTrained]
  · simp [epochInit, tot_replicate, tot_nil, wDone]
  · simp [epochInit]

theorem eInv_step {cj cp : Nat} {raw : J → Nat} {w : Nat} {js : List J} {s t : Epoch J} (h : EInv raw w js s)
    (st : EStep cj cp raw s t) : EInv raw w js t := by
  obtain ⟨h1, ⟨ks, k, hq, hk, hks⟩, h3, h4, h5, h6, h7, h8⟩ := h
  cases st with
  | put hr hc =>
    refine ⟨?_, ⟨ks, k, ?_, hk, hks⟩, h3, h4, h5, h6, h7, h8⟩
    · intro p
      have := h1 p
      simp only [hr, tot_cons, tot_append, tot_nil] at this ⊢
      omega
    · rw [← hq, hr]; simp
  | @get a b j q hw hj =>
    rw [hw] at h1 hk hks h3 h4 h5 h6 h7 h8
    have hkc : ∃ ks', ks = j :: ks' := by
      cases ks with
      | nil =>
        rw [hj] at hq
        cases k with
        | zero => simp at hq
        | succ k => simp [List.replicate_succ] at hq
      | cons x ks =>
        rw [hj] at hq
        simp only [List.map_cons, List.cons_append, List.cons.injEq, Option.some.injEq] at hq
        exact ⟨ks, by rw [hq.1]⟩
    obtain ⟨ks', rfl⟩ := hkc
    simp only [tot_append, tot_cons, wHand, wFin, wTrained, wDone] at h1 hk hks h3 h4 h5 h6
    refine ⟨?_, ⟨ks', k, ?_, ?_, ?_⟩, ?_, ?_, ?_, ?_, by simpa using h7, ?_⟩
    · intro p
      have := h1 p
      simp only [hj, tot_cons, tot_append, oSum, wHand] at this ⊢
      omega
    · rw [hj] at hq; simpa using hq
    · simp only [tot_append, tot_cons, wFin]; omega
    · intro hpos
      simp only [tot_append, tot_cons, wFin] at hpos
      exact absurd (hks hpos) (by simp)
    · simp only [tot_append, tot_cons, wTrained]; omega
    · simp only [tot_append, tot_cons, wTrained]; omega
    · simp only [tot_append, tot_cons, wTrained]; omega
    · simp only [tot_append, tot_cons, wDone]; omega
    · exact .inr (.inr ⟨.busy j, by simp, rfl⟩)
  | @stop a b q hw hj =>
    rw [hw] at h1 hk hks h3 h4 h5 h6 h7 h8
    have hkc : ks = [] ∧ ∃ k', k = k' + 1 := by
      rw [hj] at hq
      cases ks with
      | nil =>
        cases k with
        | zero => simp at hq
        | succ k => exact ⟨rfl, k, rfl⟩
      | cons x ks => simp at hq
    obtain ⟨rfl, k', rfl⟩ := hkc
    simp only [tot_append, tot_cons, wHand, wFin, wTrained, wDone] at h1 hk hks h3 h4 h5 h6
    refine ⟨?_, ⟨[], k', ?_, ?_, fun _ => rfl⟩, ?_, ?_, ?_, ?_, by simpa using h7, ?_⟩
    · intro p
      have := h1 p
      simp only [hj, tot_cons, tot_append, oSum, wHand] at this ⊢
      omega
    · rw [hj] at hq; simpa [List.replicate_succ] using hq
    · simp only [tot_append, tot_cons, wFin]; omega
    · simp only [tot_append, tot_cons, wTrained]; omega
    · simp only [tot_append, tot_cons, wTrained]; omega
    · simp only [tot_append, tot_cons, wTrained]; omega
    · simp only [tot_append, tot_cons, wDone]; omega
    · exact .inr (.inr ⟨.closing, by simp, rfl⟩)
  | @train a b j n hw =>
    rw [hw] at h1 hk hks h3 h4 h5 h6 h7 h8
    simp only [tot_append, tot_cons, wHand, wFin, wTrained, wDone] at h1 hk hks h3 h4 h5 h6
    refine ⟨?_, ⟨ks, k, hq, ?_, ?_⟩, ?_, ?_, ?_, ?_, by simpa using h7, ?_⟩
    · intro p
      have := h1 p
      simp only [tot_cons, tot_append, wHand, tot_nil] at this ⊢
      omega
    · simp only [tot_append, tot_cons, wFin]; omega
    · simpa only [tot_append, tot_cons, wFin] using hks
    · simp only [tot_append, tot_cons, wTrained, tot_nil]; omega
    · simp only [tot_append, tot_cons, wTrained, tot_nil]; omega
    · simp only [tot_append, tot_cons, wTrained, tot_nil]; omega
    · simp only [tot_append, tot_cons, wDone]; omega
    · exact .inr (.inr ⟨.trained j n, by simp, rfl⟩)
  | @report a b j n hw hc =>
    rw [hw] at h1 hk hks h3 h4 h5 h6 h7 h8
    simp only [tot_append, tot_cons, wHand, wFin, wTrained, wDone] at h1 hk hks h3 h4 h5 h6
    refine ⟨?_, ⟨ks, k, hq, ?_, ?_⟩, ?_, ?_, ?_, ?_, by simpa using h7, ?_⟩
    · intro p
      have := h1 p
      simp only [tot_cons, tot_append, wHand] at this ⊢
      omega
    · simp only [tot_append, tot_cons, wFin]; omega
    · simpa only [tot_append, tot_cons, wFin] using hks
    · simp only [tot_append, tot_cons, wTrained, tot_nil, oSum]; omega
    · simp only [tot_append, tot_cons, wTrained, tot_nil, oSum]; omega
    · simp only [tot_append, tot_cons, wTrained, tot_nil, oSum]; omega
    · simp only [tot_append, tot_cons, wDone, tot_nil, oNone]; omega
    · exact .inr (.inr ⟨.idle, by simp, rfl⟩)
  | @quit a b hw hc =>
    rw [hw] at h1 hk hks h3 h4 h5 h6 h7 h8
    simp only [tot_append, tot_cons, wHand, wFin, wTrained, wDone] at h1 hk hks h3 h4 h5 h6
    refine ⟨?_, ⟨ks, k, hq, ?_, ?_⟩, ?_, ?_, ?_, ?_, by simpa using h7, ?_⟩
    · intro p
      have := h1 p
      simp only [tot_cons, tot_append, wHand] at this ⊢
      omega
    · simp only [tot_append, tot_cons, wFin]; omega
    · simpa only [tot_append, tot_cons, wFin] using hks
    · simp only [tot_append, tot_cons, wTrained, tot_nil, oSum]; omega
    · simp only [tot_append, tot_cons, wTrained, tot_nil, oSum]; omega
    · simp only [tot_append, tot_cons, wTrained, tot_nil, oSum]; omega
    · simp only [tot_append, tot_cons, wDone, tot_nil, oNone]; omega
    · exact .inr (.inl ⟨_, rfl⟩)
  | @finished q hu hp =>
    rw [hp] at h3 h4 h5 h6 h8
    simp only [tot_cons, oSum, oNone] at h3 h4 h5 h6
    refine ⟨h1, ⟨ks, k, hq, hk, hks⟩, ?_, ?_, ?_, ?_, h7, ?_⟩
    · dsimp only; omega
    · dsimp only; omega
    · dsimp only; omega
    · dsimp only; omega
    · rcases h8 with h8 | ⟨r, h8⟩ | h8
      · simp at h8
      · cases r with
        | nil => simp only [List.nil_append, List.cons.injEq] at h8; exact .inl h8.2
        | cons y r => simp only [List.cons_append, List.cons.injEq] at h8; exact .inr (.inl ⟨r, h8.2⟩)
      · exact .inr (.inr h8)
  | @count j n q hu hp =>
    rw [hp] at h3 h4 h5 h6 h8
    simp only [tot_cons, oSum, oNone] at h3 h4 h5 h6
    refine ⟨h1, ⟨ks, k, hq, hk, hks⟩, ?_, ?_, ?_, ?_, h7, ?_⟩
    · dsimp only; omega
    · dsimp only; omega
    · dsimp only; omega
    · dsimp only; omega
    · rcases h8 with h8 | ⟨r, h8⟩ | h8
      · simp at h8
      · cases r with
        | nil => simp at h8
        | cons y r => simp only [List.cons_append, List.cons.injEq] at h8; exact .inr (.inl ⟨r, h8.2⟩)
      · exact .inr (.inr h8)

theorem wDone_le (x : Wk J) : wDone x ≤ 1 := by cases x <;> simp [wDone]
theorem wDone_eq {x : Wk J} (h : wDone x = 1) : x = .done := by cases x <;> simp [wDone] at h; rfl

/-- the end of the epoch: everything is settled -/
theorem eInv_end {raw : J → Nat} {w : Nat} {js : List J} {s : Epoch J} (hw : 0 < w) (h : EInv raw w js s)
    (hu : s.unfinished = 0) :
    (s.log.map Prod.fst).Perm js ∧
    s.trainedWords = (s.log.map Prod.snd).sum ∧ s.rawWords = (js.map raw).sum ∧ s.tally = js.length ∧
    s.rest = [] ∧ s.jobQ = [] ∧ s.progQ = [] ∧ (∀ x ∈ s.workers, x = .done) := by
  obtain ⟨h1, ⟨ks, k, hq, hk, hks⟩, h3, h4, h5, h6, h7, h8⟩ := h
  have hle := tot_le_length (f := wDone) wDone_le s.workers
  have hall := tot_all (f := wDone) wDone_le s.workers (by omega)
  have hd : ∀ x ∈ s.workers, x = .done := fun x hx => wDone_eq (hall x hx)
  have hfin : tot wFin s.workers = w := by
    have e : s.workers = List.replicate w .done := by
      rw [List.eq_replicate_iff]; exact ⟨h7, hd⟩
    rw [e, tot_replicate]; simp [wFin]
  have hk0 : k = 0 := by omega
  have hks0 : ks = [] := hks (by omega)
  subst hk0 hks0
  simp only [List.map_nil, List.replicate_zero, List.append_nil, List.append_eq_nil_iff] at hq
  have hp : s.progQ = [] := by
    rcases h8 with h8 | ⟨q, h8⟩ | ⟨x, hx, h8⟩
    · exact h8
    · exfalso
      rw [h8] at h6
      simp only [tot_append, tot_cons, tot_nil, oNone] at h6
      omega
    · rw [hall x hx] at h8; exact absurd h8 (by simp)
  have hz : ∀ f : Wk J → Nat, f .done = 0 → tot f s.workers = 0 := fun f hf =>
    tot_zero _ (fun x hx => by rw [hd x hx]; exact hf)
  have hjobs : ∀ p : J → Nat, tot (fun x => p x.1) s.log = tot p js := by
    intro p
    have := h1 p
    rw [hq.1, hq.2, tot_nil, hz _ rfl] at this
    simpa using this
  refine ⟨?_, ?_, ?_, ?_, hq.2, hq.1, hp, hd⟩
  · classical
    rw [List.perm_iff_count]
    intro x
    have := hjobs (fun y => if y = x then 1 else 0)
    have key : ∀ l : List J, tot (fun y => if y = x then 1 else 0) l = l.count x := by
      intro l
      induction l with
      | nil => rfl
      | cons y l ih => rw [tot_cons, ih, List.count_cons]; simp only [beq_iff_eq]; split <;> omega
    rw [← key, ← key, ← this, tot_map]
  · rw [hp, tot_nil, hz _ rfl] at h3; simpa [tot] using h3
  · rw [hp, tot_nil, hz _ rfl, hjobs] at h4; simpa [tot] using h4
  · rw [hp, tot_nil, hz _ rfl] at h5
    have := hjobs (fun _ => 1)
    rw [this] at h5
    simpa [tot] using h5

theorem replicate_nil_of {k : Nat} {ks : List J} (h : [] = ks.map some ++ List.replicate k (none : Option J)) :
    ks = [] ∧ k = 0 := by
  cases ks with
  | nil => cases k with
    | zero => exact ⟨rfl, rfl⟩
    | succ k => simp [List.replicate_succ] at h
  | cons x ks => simp at h

/-- no deadlock -/
theorem eInv_progress {cj cp : Nat} {raw : J → Nat} {w : Nat} {js : List J} {s : Epoch J} (hcj : 0 < cj) (hcp : 0 < cp)
    (h : EInv raw w js s) (hu : 0 < s.unfinished) : ∃ t, EStep cj cp raw s t := by
  cases hp : s.progQ with
  | cons x q =>
    cases x with
    | none => exact ⟨_, .finished hu hp⟩
    | some r => exact ⟨_, .count (j := r.1) (n := r.2) hu hp⟩
  | nil =>
    have hroom : s.progQ.length < cp := by rw [hp]; exact hcp
    by_cases hex : ∃ x ∈ s.workers, wDone x = 0
    · obtain ⟨x, hx, hx0⟩ := hex
      obtain ⟨a, b, hab⟩ := List.append_of_mem hx
      cases x with
      | busy j => exact ⟨_, .train 0 hab⟩
      | trained j n => exact ⟨_, .report hab hroom⟩
      | closing => exact ⟨_, .quit hab hroom⟩
      | done => simp [wDone] at hx0
      | idle =>
        cases hj : s.jobQ with
        | cons y q =>
          cases y with
          | none => exact ⟨_, .stop hab hj⟩
          | some j => exact ⟨_, .get hab hj⟩
        | nil =>
          cases hr : s.rest with
          | cons y r => exact ⟨_, .put hr (by rw [hj]; exact hcj)⟩
          | nil =>
            exfalso
            obtain ⟨ks, k, hq, hk, _⟩ := h.queue
            rw [hj, hr] at hq
            obtain ⟨_, rfl⟩ := replicate_nil_of hq
            have h7 := h.len
            rw [hab] at hk h7
            simp only [tot_append, tot_cons, wFin] at hk
            have hf : ∀ x : Wk J, wFin x ≤ 1 := by intro x; cases x <;> simp [wFin]
            have := tot_le_length hf a
            have := tot_le_length hf b
            simp only [List.length_append, List.length_cons] at h7
            omega
    · exfalso
      have e : s.workers = List.replicate w .done := by
        rw [List.eq_replicate_iff]
        refine ⟨h.len, fun x hx => wDone_eq ?_⟩
        have := wDone_le x
        have : wDone x ≠ 0 := fun h0 => hex ⟨x, hx, h0⟩
        omega
      have h6 := h.marks
      rw [e, tot_replicate, hp, tot_nil] at h6
      simp only [wDone] at h6
      omega

/-- the work left -/
def wWork : Wk J → Nat
  | .idle => 0
  | .busy _ => 3
  | .trained _ _ => 2
  | .closing => 2
  | .done => 0

def work (s : Epoch J) : Nat := 5 * s.rest.length + 4 * s.jobQ.length + tot wWork s.workers + s.progQ.length

theorem work_decreases {cj cp : Nat} {raw : J → Nat} {s t : Epoch J} (st : EStep cj cp raw s t) : work t < work s := by
  cases st with
  | put hr hc => simp [work, hr]; omega
  | get hw hj => simp [work, hw, hj, tot_append, tot_cons, wWork]; omega
  | stop hw hj => simp [work, hw, hj, tot_append, tot_cons, wWork]; omega
  | train n hw => simp [work, hw, tot_append, tot_cons, wWork]
  | report hw hc => simp [work, hw, tot_append, tot_cons, wWork]; omega
  | quit hw hc => simp [work, hw, tot_append, tot_cons, wWork]; omega
  | finished hu hp => simp [work, hp]
  | count hu hp => simp [work, hp]

theorem eInv_steps {cj cp : Nat} {raw : J → Nat} {w : Nat} {js : List J} {s t : Epoch J} {n : Nat}
    (h : EInv raw w js s) (st : Chunk.Steps (EStep cj cp raw) s n t) : EInv raw w js t ∧ n + work t ≤ work s := by
  induction st with
  | refl => exact ⟨h, by omega⟩
  | tail _ hst ih =>
    obtain ⟨h1, h2⟩ := ih
    exact ⟨eInv_step h1 hst, by have := work_decreases hst; omega⟩

/-- **C29.** In every interleaving of the producer, the `w ≥ 1` workers and the consumer, with any queue
capacities ≥ 1: whenever the epoch ends, the jobs trained are exactly the jobs produced (each once), the
totals returned are the sums over them, and every thread and queue is finished and empty. -/
theorem C29_exactly_once {cj cp : Nat} {raw : J → Nat} {w : Nat} (hw : 0 < w) {js : List J} {n : Nat} {t : Epoch J}
    (st : Chunk.Steps (EStep cj cp raw) (epochInit w js) n t) (hend : t.unfinished = 0) :
    (t.log.map Prod.fst).Perm js ∧
    t.trainedWords = (t.log.map Prod.snd).sum ∧ t.rawWords = (js.map raw).sum ∧ t.tally = js.length ∧
    t.rest = [] ∧ t.jobQ = [] ∧ t.progQ = [] ∧ (∀ x ∈ t.workers, x = .done) :=
  eInv_end hw (eInv_steps (eInv_init raw w js) st).1 hend

/-- **C29.** No interleaving deadlocks: while the epoch has not ended, some thread can take a step. -/
theorem C29_no_deadlock {cj cp : Nat} (hcj : 0 < cj) (hcp : 0 < cp) {raw : J → Nat} {w : Nat} {js : List J} {n : Nat}
    {t : Epoch J} (st : Chunk.Steps (EStep cj cp raw) (epochInit w js) n t) (h : 0 < t.unfinished) :
    ∃ t', EStep cj cp raw t t' :=
  eInv_progress hcj hcp (eInv_steps (eInv_init raw w js) st).1 h

/-- **C29.** Every interleaving ends: there are at most five steps per job and per end marker. -/
theorem C29_terminates {cj cp : Nat} {raw : J → Nat} {w : Nat} {js : List J} {n : Nat}
    {t : Epoch J} (st : Chunk.Steps (EStep cj cp raw) (epochInit w js) n t) : n ≤ 5 * (js.length + w) := by
  have := (eInv_steps (eInv_init raw w js) st).2
  have e : work (epochInit w js) = 5 * (js.length + w) := by
    simp [work, epochInit, tot_replicate, wWork]
  omega

/-- the job a worker holds -/
def hand : Wk J → List J
  | .busy j => [j]
  | _ => []

/-- **C29.** With one worker the jobs are trained in the order of the corpus. -/
theorem C29_one_worker_in_order {cj cp : Nat} {raw : J → Nat} {js : List J} {n : Nat} {t : Epoch J}
    (st : Chunk.Steps (EStep cj cp raw) (epochInit 1 js) n t) (hend : t.unfinished = 0) : t.log.map Prod.fst = js := by
  have key : ∀ {s t : Epoch J} {n : Nat}, Chunk.Steps (EStep cj cp raw) s n t →
      (∃ x, s.workers = [x] ∧ s.log.map Prod.fst ++ hand x ++ (s.jobQ ++ s.rest).filterMap id = js) →
      ∃ x, t.workers = [x] ∧ t.log.map Prod.fst ++ hand x ++ (t.jobQ ++ t.rest).filterMap id = js := by
    intro s t n st
    induction st with
    | refl => exact id
    | tail _ hst ih =>
      intro h0
      obtain ⟨x, hx, hlog⟩ := ih h0
      have one : ∀ {a b : List (Wk J)} {y : Wk J}, [x] = a ++ y :: b → a = [] ∧ b = [] ∧ x = y := by
        intro a b y he
        cases a with
        | nil => simp at he; exact ⟨rfl, he.2, he.1⟩
        | cons z a => simp at he
      cases hst with
      | put hr hc => exact ⟨x, hx, by rw [← hlog, hr]; simp only [List.append_assoc, List.singleton_append]⟩
      | get hw hj =>
        rw [hx] at hw; obtain ⟨rfl, rfl, rfl⟩ := one hw
        exact ⟨_, rfl, by rw [← hlog, hj]; simp [hand]⟩
      | stop hw hj =>
        rw [hx] at hw; obtain ⟨rfl, rfl, rfl⟩ := one hw
        exact ⟨_, rfl, by rw [← hlog, hj]; simp [hand]⟩
      | train n hw =>
        rw [hx] at hw; obtain ⟨rfl, rfl, rfl⟩ := one hw
        exact ⟨_, rfl, by rw [← hlog]; simp [hand]⟩
      | report hw hc =>
        rw [hx] at hw; obtain ⟨rfl, rfl, rfl⟩ := one hw
        exact ⟨_, rfl, by rw [← hlog]; simp [hand]⟩
      | quit hw hc =>
        rw [hx] at hw; obtain ⟨rfl, rfl, rfl⟩ := one hw
        exact ⟨_, rfl, by rw [← hlog]; simp [hand]⟩
      | finished hu hp => exact ⟨x, hx, hlog⟩
      | count hu hp => exact ⟨x, hx, hlog⟩
  obtain ⟨x, hx, h⟩ := key st ⟨.idle, rfl, by
    simp only [epochInit, hand, List.map_nil, List.nil_append]
    rw [List.filterMap_append]
    simp [List.filterMap_map]⟩
  obtain ⟨_, _, _, _, h5, h6, _, h8⟩ := C29_exactly_once (by omega) st hend
  have hd := h8 x (by rw [hx]; simp)
  subst hd
  rw [h5, h6] at h
  simpa [hand] using h

/-- one worker is reachable to the end of the epoch: a complete run with one job -/
example : ∃ n t, Chunk.Steps (EStep 2 3 (fun _ : Nat => 5)) (epochInit 1 [7]) n t ∧ t.unfinished = 0 ∧
    t.log = [(7, 4)] ∧ t.trainedWords = 4 ∧ t.rawWords = 5 ∧ t.tally = 1 := by
  refine ⟨_, _, (((((((((Chunk.Steps.refl _).tail (.put (x := some 7) (r := [none]) rfl (by decide))).tail
    (.get (a := []) (b := []) (j := 7) (q := []) rfl rfl)).tail
    (.train (a := []) (b := []) (j := 7) 4 rfl)).tail
    (.put (x := none) (r := []) rfl (by decide))).tail
    (.report (a := []) (b := []) (j := 7) (n := 4) rfl (by decide))).tail
    (.stop (a := []) (b := []) (q := []) rfl rfl)).tail
    (.count (j := 7) (n := 4) (q := []) (by decide) rfl)).tail
    (.quit (a := []) (b := []) rfl (by decide))).tail
    (.finished (q := []) (by decide) rfl), ?_⟩
  decide

end Verif.W2V
