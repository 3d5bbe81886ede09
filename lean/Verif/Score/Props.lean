import Verif.Score.Model
import Verif.Utils.ChunkProps

/-!
# C111: scoring with several threads

Specification: whatever the schedule, `score` ends and returns the scores of the first
`total_sentences` sentences, in the order of the sentences (`expected`).
-/

namespace Verif.Score

variable {α S : Type}

/-! ### Specification -/

/-- The scores of the first `total_sentences` sentences, in order. -/
def expected (c : Cfg α S) : List S := (c.sentences.take c.total).map c.score

/-! ### The invariant -/

/-- 1 for a worker that holds a job. -/
def infl : Worker α → Nat
  | .idle => 0
  | .busy _ _ => 1
  | .report _ => 1
  | .exited => 0

/-- 1 for a worker that has ended. -/
def exd : Worker α → Nat
  | .exited => 1
  | _ => 0

/-- Number of sentences of a job that get a score. -/
def work (c : Cfg α S) (j : Job α) : Nat := (j.filter fun p => decide (p.1 < c.total)).length

/-- What a worker will have reported when it has finished its job. -/
def wk (c : Cfg α S) : Worker α → Nat
  | .busy rest ns => ns + work c rest
  | .report ns => ns
  | _ => 0

/-- The sentences a worker still has to score. -/
def restOf : Worker α → Job α
  | .busy rest _ => rest
  | _ => []

/-- The items are numbered sentences, in increasing order. -/
def Good (c : Cfg α S) (j : Job α) : Prop :=
  (∀ p ∈ j, c.sentences[p.1]? = some p.2) ∧ j.Pairwise fun p q => p.1 < q.1

/-- The jobs put so far include every sentence that gets a score. -/
def Cover (c : Cfg α S) (pushed : List (Job α)) : Prop :=
  (∃ r, c.jobs = pushed ++ r) ∧ (pushed = c.jobs ∨ c.total ≤ pushed.flatten.length)

/-- What holds where the calling thread is. -/
def PhaseInv (c : Cfg α S) (s : St α S) (pushed : List (Job α)) (k : Nat) : Prop :=
  match s.main with
  | .pull => s.pushDone = false ∧ k = 0 ∧ (s.workers.map exd).sum = 0 ∧ c.jobs = pushed ++ s.src ∧
      s.nextNo = pushed.length ∧
      s.jobNo = (if pushed.length = 0 then none else some (pushed.length - 1)) ∧
      (c.jobCap ≠ 0 → pushed.length ≤ s.doneJobs + c.jobCap + c.workers)
  | .put job => s.pushDone = false ∧ k = 0 ∧ (s.workers.map exd).sum = 0 ∧
      c.jobs = pushed ++ job :: s.src ∧ s.nextNo = pushed.length + 1 ∧
      s.jobNo = some pushed.length ∧
      (c.jobCap ≠ 0 → pushed.length ≤ s.doneJobs + c.jobCap + c.workers)
  | .sentinels m => s.pushDone = false ∧ 0 < pushed.length ∧ s.jobNo = some (pushed.length - 1) ∧
      Cover c pushed ∧ m + k + (s.workers.map exd).sum = c.workers ∧
      (c.jobCap ≠ 0 → pushed.length ≤ s.doneJobs + c.jobCap + c.workers)
  | .drain => 0 < pushed.length ∧ s.jobNo = some (pushed.length - 1) ∧
      ((s.pushDone = false ∧ k = 0 ∧ (s.workers.map exd).sum = 0 ∧ c.jobs = pushed ++ s.src ∧
        s.nextNo = pushed.length) ∨
       (s.pushDone = true ∧ Cover c pushed ∧ k + (s.workers.map exd).sum = c.workers))
  | .finished => Cover c pushed ∧ s.doneJobs = pushed.length ∧ 0 < pushed.length
  | .crashed => c.jobs = []

/-- The invariant, with the jobs put so far, the jobs in the queue and the number of `None`s behind
them. -/
structure Inv (c : Cfg α S) (s : St α S) (pushed js : List (Job α)) (k : Nat) : Prop where
  queue : s.jobQ = js.map some ++ List.replicate k none
  cap : c.jobCap ≠ 0 → s.jobQ.length ≤ c.jobCap
  fifo : 0 < (s.workers.map exd).sum → js = []
  nw : s.workers.length = c.workers
  goodP : ∀ j ∈ pushed, Good c j
  goodJ : ∀ j ∈ js, Good c j
  goodS : ∀ j ∈ c.jobs, Good c j
  goodW : ∀ w ∈ s.workers, Good c (restOf w)
  len : s.scores.length = c.total
  acct : s.doneJobs + s.progQ.length + (s.workers.map infl).sum + js.length = pushed.length
  cnt : s.count + s.progQ.sum + (s.workers.map (wk c)).sum + (js.map (work c)).sum =
    (pushed.map (work c)).sum
  written : ∀ p ∈ pushed.flatten, p.1 < c.total → s.scores[p.1]? = some (c.score p.2) ∨
    p ∈ js.flatten ∨ p ∈ s.workers.flatMap restOf
  phase : PhaseInv c s pushed k

theorem mem_enum {l : List α} {p : Nat × α} (h : p ∈ enum l) : l[p.1]? = some p.2 := by
  unfold enum at h
  obtain ⟨q, hq, rfl⟩ := List.mem_map.1 h
  exact List.mem_zipIdx_iff_getElem?.1 hq

theorem enum_fst (l : List α) : (enum l).map Prod.fst = List.range l.length := by
  unfold enum
  rw [List.map_map]
  have : (Prod.fst ∘ fun p : α × Nat => (p.2, p.1)) = Prod.snd := rfl
  rw [this, List.zipIdx_map_snd, List.range_eq_range']

theorem enum_pairwise (l : List α) : (enum l).Pairwise fun p q => p.1 < q.1 := by
  have := List.pairwise_map.1 ((enum_fst l).symm ▸ (List.pairwise_lt_range (n := l.length)))
  exact this

theorem enum_length (l : List α) : (enum l).length = l.length := by simp [enum]

theorem good_of_sublist {c : Cfg α S} {a b : Job α} (h : a.Sublist b) (hb : Good c b) : Good c a :=
  ⟨fun p hp => hb.1 p (h.subset hp), hb.2.sublist h⟩

theorem good_jobs (c : Cfg α S) : ∀ j ∈ c.jobs, Good c j := by
  intro j hj
  by_cases hk : c.chunk = 0
  · unfold Cfg.jobs at hj
    rw [hk, Chunk.chunks] at hj
    simp at hj
  have hflat := Chunk.C15_concat (Nat.pos_of_ne_zero hk) (enum c.sentences)
  have hsub : j.Sublist (enum c.sentences) := by
    rw [← hflat]
    exact List.sublist_flatten_of_mem hj
  exact good_of_sublist hsub ⟨fun p hp => mem_enum hp, enum_pairwise _⟩

theorem flatten_length_of_prefix {k : Nat} (hk : 0 < k) {β : Type} (pushed : List (List β)) :
    ∀ (l : List β) (job : List β) (r : List (List β)), Chunk.chunks k l = pushed ++ job :: r →
      pushed.flatten.length = pushed.length * k := by
  induction pushed with
  | nil => intro l job r _; simp
  | cons a pushed ih =>
    intro l job r h
    have hl : l ≠ [] := by rintro rfl; rw [Chunk.chunks_nil] at h; simp at h
    rw [Chunk.chunks_cons hk hl] at h
    simp only [List.cons_append, List.cons.injEq] at h
    obtain ⟨h1, h2⟩ := h
    have := ih _ _ _ h2
    have hd : l.drop k ≠ [] := by
      intro hd
      rw [hd, Chunk.chunks_nil] at h2
      simp at h2
    have := List.length_pos_iff.2 hd
    rw [List.length_drop] at this
    rw [List.flatten_cons, List.length_append, ih _ _ _ h2, ← h1, List.length_take, List.length_cons,
      Nat.succ_mul]
    omega

theorem inv_start (c : Cfg α S) : Inv c (start c) [] [] 0 := by
  constructor
  · rfl
  · intro _; simp [start]
  · intro _; rfl
  · simp [start]
  · simp
  · simp
  · exact good_jobs c
  · intro w hw
    obtain rfl := List.eq_of_mem_replicate (show w ∈ List.replicate c.workers Worker.idle from hw)
    exact ⟨by simp [restOf], by simp [restOf]⟩
  · simp [start]
  · simp [start, infl]
  · simp [start, wk]
  · simp
  · simp [PhaseInv, start, exd]

theorem Inv.congr_main {c : Cfg α S} {s t : St α S} {pushed js : List (Job α)} {k : Nat}
    (h : Inv c s pushed js k) (h1 : t.jobQ = s.jobQ) (h2 : t.workers = s.workers)
    (h3 : t.scores = s.scores)
    (hacct : t.doneJobs + t.progQ.length = s.doneJobs + s.progQ.length)
    (hcnt : t.count + t.progQ.sum = s.count + s.progQ.sum) (hp : PhaseInv c t pushed k) :
    Inv c t pushed js k := by
  refine ⟨?_, ?_, ?_, ?_, h.goodP, h.goodJ, h.goodS, ?_, ?_, ?_, ?_, ?_, hp⟩
  · rw [h1]; exact h.queue
  · rw [h1]; exact h.cap
  · rw [h2]; exact h.fifo
  · rw [h2]; exact h.nw
  · rw [h2]; exact h.goodW
  · rw [h3]; exact h.len
  · rw [h2, hacct]; exact h.acct
  · rw [h2, hcnt]; exact h.cnt
  · rw [h2, h3]; exact h.written

theorem infl_le (ws : List (Worker α)) : (ws.map infl).sum + (ws.map exd).sum ≤ ws.length := by
  induction ws with
  | nil => simp
  | cons w ws ih =>
    simp only [List.map_cons, List.sum_cons, List.length_cons]
    have : infl w + exd w ≤ 1 := by cases w <;> simp [infl, exd]
    omega

theorem room_iff {β : Type} (q : List β) (cap : Nat) : room q cap = true ↔ cap ≠ 0 → q.length < cap := by
  unfold room
  simp only [Bool.or_eq_true, decide_eq_true_eq]
  constructor
  · rintro (h | h) h'
    · exact absurd h h'
    · exact h
  · intro h
    by_cases h0 : cap = 0
    · exact .inl h0
    · exact .inr (h h0)

theorem inv_main {c : Cfg α S} (hk : 0 < c.chunk) {s t : St α S} {pushed js : List (Job α)} {k : Nat}
    (h : Inv c s pushed js k) (hs : mainStep c s = some t) : ∃ pushed' js' k', Inv c t pushed' js' k' := by
  have hph := h.phase
  unfold mainStep at hs
  unfold PhaseInv at hph
  cases hm : s.main with
  | pull =>
    simp only [hm] at hs hph
    obtain ⟨p1, p2, p3, p4, p5, p6, p7⟩ := hph
    cases hsrc : s.src with
    | nil =>
      rw [hsrc, List.append_nil] at p4
      simp only [hsrc] at hs
      by_cases h0 : pushed.length = 0
      · rw [if_pos h0] at p6
        simp only [p6, Option.some.injEq] at hs
        subst hs
        refine ⟨pushed, js, k, h.congr_main rfl rfl rfl rfl rfl ?_⟩
        show c.jobs = []
        rw [p4]
        exact List.length_eq_zero_iff.1 h0
      · rw [if_neg h0] at p6
        simp only [p6, Option.some.injEq] at hs
        subst hs
        refine ⟨pushed, js, k, h.congr_main rfl rfl rfl rfl rfl ?_⟩
        refine ⟨p1, Nat.pos_of_ne_zero h0, rfl, ⟨⟨[], by simp [p4]⟩, .inl p4.symm⟩, ?_, p7⟩
        show c.workers + k + (s.workers.map exd).sum = c.workers
        rw [p2, p3]
        rfl
    | cons job rest =>
      simp only [hsrc] at hs
      rw [hsrc] at p4
      by_cases hl : ((s.nextNo : Int) - 1) * c.chunk > c.total
      · rw [if_pos hl, Option.some.injEq] at hs
        subst hs
        refine ⟨pushed, js, k, h.congr_main rfl rfl rfl rfl rfl ?_⟩
        have hflat := flatten_length_of_prefix hk pushed _ _ _ p4
        have hpos : 0 < pushed.length := by
          rcases Nat.eq_zero_or_pos pushed.length with h0 | h0
          · exfalso
            rw [p5, h0] at hl
            have : ((((0 : Nat) : Int) - 1) * (c.chunk : Int)) = -(c.chunk : Int) := by simp
            omega
          · exact h0
        refine ⟨p1, hpos, by simp [p5], ⟨⟨_, p4⟩, .inr ?_⟩, ?_, p7⟩
        · rw [hflat]
          rw [p5] at hl
          have e : (((pushed.length : Nat) : Int) - 1) * (c.chunk : Int) =
              ((pushed.length * c.chunk : Nat) : Int) - c.chunk := by
            push_cast; rw [Int.sub_mul, Int.one_mul]
          rw [e] at hl
          omega
        · show c.workers + k + (s.workers.map exd).sum = c.workers
          rw [p2, p3]
          rfl
      · rw [if_neg hl, Option.some.injEq] at hs
        subst hs
        refine ⟨pushed, js, k, h.congr_main rfl rfl rfl rfl rfl ?_⟩
        exact ⟨p1, p2, p3, p4, by simp [p5], by simp [p5], p7⟩
  | put job =>
    simp only [hm] at hs hph
    obtain ⟨p1, p2, p3, p4, p5, p6, p7⟩ := hph
    split at hs
    · rename_i hroom
      rw [Option.some.injEq] at hs
      subst hs
      have hgj : Good c job := h.goodS job (by rw [p4]; simp)
      refine ⟨pushed ++ [job], js ++ [job], k, ?_⟩
      refine ⟨?_, ?_, ?_, h.nw, ?_, ?_, h.goodS, h.goodW, h.len, ?_, ?_, ?_, ?_⟩
      · show s.jobQ ++ [some job] = _
        rw [h.queue, p2]
        simp
      · intro hc
        show (s.jobQ ++ [some job]).length ≤ _
        have := (room_iff _ _).1 hroom hc
        rw [List.length_append, List.length_singleton]
        omega
      · intro hx
        exact absurd p3 (Nat.pos_iff_ne_zero.1 hx)
      · intro j hj
        rcases List.mem_append.1 hj with hj | hj
        · exact h.goodP j hj
        · rw [List.mem_singleton] at hj
          rw [hj]; exact hgj
      · intro j hj
        rcases List.mem_append.1 hj with hj | hj
        · exact h.goodJ j hj
        · rw [List.mem_singleton] at hj
          rw [hj]; exact hgj
      · have := h.acct
        simp only [List.length_append, List.length_singleton] at this ⊢
        omega
      · have := h.cnt
        simp only [List.map_append, List.sum_append, List.map_cons, List.map_nil, List.sum_cons,
          List.sum_nil] at this ⊢
        omega
      · intro p hp hlt
        rw [List.flatten_append, List.mem_append] at hp
        rcases hp with hp | hp
        · rcases h.written p hp hlt with h1 | h1 | h1
          · exact .inl h1
          · refine .inr (.inl ?_)
            rw [List.flatten_append, List.mem_append]
            exact .inl h1
          · exact .inr (.inr h1)
        · refine .inr (.inl ?_)
          rw [List.flatten_append, List.mem_append]
          exact .inr hp
      · refine ⟨by simp, by simp [p6], .inl ⟨p1, p2, p3, ?_, by simp [p5]⟩⟩
        rw [p4]
        simp
    · simp at hs
  | sentinels m =>
    simp only [hm] at hs hph
    obtain ⟨p1, p2, p3, p4, p5, p6⟩ := hph
    cases m with
    | zero =>
      simp only [Option.some.injEq] at hs
      subst hs
      refine ⟨pushed, js, k, h.congr_main rfl rfl rfl rfl rfl ?_⟩
      exact ⟨p2, p3, .inr ⟨rfl, p4, by simpa using p5⟩⟩
    | succ m =>
      simp only at hs
      split at hs
      · rename_i hroom
        rw [Option.some.injEq] at hs
        subst hs
        refine ⟨pushed, js, k + 1, ?_⟩
        refine ⟨?_, ?_, h.fifo, h.nw, h.goodP, h.goodJ, h.goodS, h.goodW, h.len, h.acct, h.cnt, h.written, ?_⟩
        · show s.jobQ ++ [none] = _
          rw [h.queue, List.replicate_succ', List.append_assoc]
        · intro hc
          show (s.jobQ ++ [none]).length ≤ _
          have := (room_iff _ _).1 hroom hc
          rw [List.length_append, List.length_singleton]
          omega
        · refine ⟨p1, p2, p3, p4, ?_, p6⟩
          show m + (k + 1) + (s.workers.map exd).sum = c.workers
          omega
      · simp at hs
  | drain =>
    simp only [hm] at hs hph
    obtain ⟨p1, p2, p3⟩ := hph
    split at hs
    · cases hq : s.progQ with
      | cons ns q =>
        simp only [hq, Option.some.injEq] at hs
        subst hs
        refine ⟨pushed, js, k, h.congr_main rfl rfl rfl ?_ ?_ ?_⟩
        · simp [hq]; omega
        · simp [hq]; omega
        · unfold PhaseInv
          simp only [hm]
          exact ⟨p1, p2, p3⟩
      | nil =>
        simp only [hq] at hs
        split at hs
        · simp at hs
        · rename_i hpd
          rw [Option.some.injEq] at hs
          subst hs
          refine ⟨pushed, js, k, h.congr_main rfl rfl rfl (by simp [hq]) (by simp [hq]) ?_⟩
          rcases p3 with ⟨q1, q2, q3, q4, q5⟩ | ⟨q1, _⟩
          · refine ⟨q1, q2, q3, q4, q5, ?_, ?_⟩
            · rw [if_neg (by omega)]; exact p2
            · intro hc
              show pushed.length ≤ s.doneJobs + c.jobCap + c.workers
              have h1 := h.cap hc
              rw [h.queue, List.length_append, List.length_map] at h1
              have h2 := h.acct
              rw [hq] at h2
              have h3 := infl_le s.workers
              rw [h.nw] at h3
              simp only [List.length_nil] at h2
              omega
          · exact absurd q1 hpd
    · rename_i hcond
      rw [Option.some.injEq] at hs
      subst hs
      refine ⟨pushed, js, k, h.congr_main rfl rfl rfl rfl rfl ?_⟩
      rcases p3 with ⟨q1, _⟩ | ⟨q1, q2, _⟩
      · exact absurd (.inr q1) hcond
      · refine ⟨q2, ?_, p1⟩
        show s.doneJobs = pushed.length
        have h2 := h.acct
        have h3 : ¬ s.doneJobs < s.jobNo.getD 0 + 1 := fun hx => hcond (.inl hx)
        rw [p2] at h3
        simp only [Option.getD_some] at h3
        omega
  | finished => simp [hm] at hs
  | crashed => simp [hm] at hs

theorem phase_worker {c : Cfg α S} {s t : St α S} {pushed : List (Job α)} {k k' : Nat}
    (h : PhaseInv c s pushed k) (hm : t.main = s.main) (h1 : t.pushDone = s.pushDone)
    (h2 : t.src = s.src) (h3 : t.nextNo = s.nextNo) (h4 : t.jobNo = s.jobNo)
    (h5 : t.doneJobs = s.doneJobs) (h6 : k' + (t.workers.map exd).sum = k + (s.workers.map exd).sum) :
    PhaseInv c t pushed k' := by
  unfold PhaseInv at h ⊢
  rw [hm]
  cases hmm : s.main with
  | pull =>
    simp only [hmm] at h ⊢
    rw [h1, h2, h3, h4, h5]
    obtain ⟨p1, p2, p3, p⟩ := h
    exact ⟨p1, by omega, by omega, p⟩
  | put job =>
    simp only [hmm] at h ⊢
    rw [h1, h2, h3, h4, h5]
    obtain ⟨p1, p2, p3, p⟩ := h
    exact ⟨p1, by omega, by omega, p⟩
  | sentinels m =>
    simp only [hmm] at h ⊢
    rw [h1, h4, h5]
    obtain ⟨p1, p2, p3, p4, p5, p6⟩ := h
    exact ⟨p1, p2, p3, p4, by omega, p6⟩
  | drain =>
    simp only [hmm] at h ⊢
    rw [h1, h2, h3, h4]
    obtain ⟨p1, p2, ⟨q1, q2, q3, q⟩ | ⟨q1, q2, q3⟩⟩ := h
    · exact ⟨p1, p2, .inl ⟨q1, by omega, by omega, q⟩⟩
    · exact ⟨p1, p2, .inr ⟨q1, q2, by omega⟩⟩
  | finished =>
    simp only [hmm] at h ⊢
    rw [h5]; exact h
  | crashed =>
    simp only [hmm] at h ⊢
    exact h

theorem inv_worker {c : Cfg α S} {s t : St α S} {pushed js : List (Job α)} {k : Nat}
    {a b : List (Worker α)} {w w' : Worker α} (h : Inv c s pushed js k)
    (hw : s.workers = a ++ w :: b) (hs : workerStep c s w = some (t, w')) :
    ∃ js' k', Inv c { t with workers := a ++ w' :: b } pushed js' k' := by
  have hnw := h.nw
  have hex : ∀ (u : Worker α), ((a ++ u :: b).map exd).sum = (a.map exd).sum + exd u + (b.map exd).sum := by
    intro u; simp; omega
  have hin : ∀ (u : Worker α), ((a ++ u :: b).map infl).sum = (a.map infl).sum + infl u + (b.map infl).sum := by
    intro u; simp; omega
  have hwk : ∀ (u : Worker α), ((a ++ u :: b).map (wk c)).sum =
      (a.map (wk c)).sum + wk c u + (b.map (wk c)).sum := by
    intro u; simp; omega
  have hmem : ∀ (u : Worker α) (p : Nat × α), p ∈ (a ++ u :: b).flatMap restOf ↔
      p ∈ a.flatMap restOf ∨ p ∈ restOf u ∨ p ∈ b.flatMap restOf := by
    intro u p; simp only [List.flatMap_append, List.flatMap_cons, List.mem_append]
  have hlen : ∀ u u' : Worker α, (a ++ u :: b).length = (a ++ u' :: b).length := by intro u u'; simp
  have hgw := h.goodW
  have hacct := h.acct
  have hcnt := h.cnt
  have hwr := h.written
  have hfifo := h.fifo
  have hphase := h.phase
  rw [hw] at hnw hgw hacct hcnt hwr hfifo
  rw [hin] at hacct
  rw [hwk] at hcnt
  rw [hex] at hfifo
  have hga : ∀ u ∈ a, Good c (restOf u) := fun u hu => hgw u (by simp [hu])
  have hgb : ∀ u ∈ b, Good c (restOf u) := fun u hu => hgw u (by simp [hu])
  have hgm : ∀ u : Worker α, Good c (restOf u) → ∀ v ∈ a ++ u :: b, Good c (restOf v) := by
    intro u hu v hv
    simp only [List.mem_append, List.mem_cons] at hv
    rcases hv with hv | rfl | hv
    · exact hga v hv
    · exact hu
    · exact hgb v hv
  have hnil : Good c ([] : Job α) := ⟨by simp, by simp⟩
  have hexs : (s.workers.map exd).sum = (a.map exd).sum + exd w + (b.map exd).sum := by rw [hw, hex]
  cases w with
  | idle =>
    simp only [workerStep] at hs
    cases hjs : js with
    | cons j js2 =>
      have hq := h.queue
      rw [hjs] at hq
      simp only [List.map_cons, List.cons_append] at hq
      simp only [hq, Option.some.injEq, Prod.mk.injEq] at hs
      obtain ⟨rfl, rfl⟩ := hs
      rw [hjs] at hacct hcnt hwr hfifo
      refine ⟨js2, k, ⟨rfl, ?_, ?_, ?_, h.goodP, ?_, h.goodS, ?_, h.len, ?_, ?_, ?_, ?_⟩⟩
      · intro hc
        have := h.cap hc
        rw [hq, List.length_cons] at this
        exact Nat.le_of_succ_le this
      · intro hx
        rw [hex] at hx
        exact absurd (hfifo hx) (by simp)
      · rw [← hnw]; exact hlen _ _
      · exact fun u hu => h.goodJ u (by rw [hjs]; simp [hu])
      · exact hgm _ (h.goodJ j (by rw [hjs]; simp))
      · rw [hin]
        simp only [infl, List.length_cons] at hacct ⊢
        omega
      · rw [hwk]
        simp only [wk, List.map_cons, List.sum_cons] at hcnt ⊢
        omega
      · intro p hp hlt
        rw [hmem]
        rcases hwr p hp hlt with h1 | h1 | h1
        · exact .inl h1
        · rw [List.flatten_cons, List.mem_append] at h1
          rcases h1 with h1 | h1
          · exact .inr (.inr (.inr (.inl h1)))
          · exact .inr (.inl h1)
        · rw [hmem] at h1
          rcases h1 with h1 | h1 | h1
          · exact .inr (.inr (.inl h1))
          · simp [restOf] at h1
          · exact .inr (.inr (.inr (.inr h1)))
      · refine phase_worker hphase rfl rfl rfl rfl rfl rfl ?_
        show k + ((a ++ Worker.busy j 0 :: b).map exd).sum = _
        rw [hex, hexs]
        simp [exd]
    | nil =>
      have hq := h.queue
      rw [hjs] at hq
      simp only [List.map_nil, List.nil_append] at hq
      cases k with
      | zero =>
        simp [hq] at hs
      | succ k =>
        rw [List.replicate_succ] at hq
        simp only [hq, Option.some.injEq, Prod.mk.injEq] at hs
        obtain ⟨rfl, rfl⟩ := hs
        rw [hjs] at hacct hcnt hwr
        refine ⟨[], k, ⟨rfl, ?_, fun _ => rfl, ?_, h.goodP, by simp, h.goodS, hgm _ hnil, h.len, ?_, ?_, ?_, ?_⟩⟩
        · intro hc
          have := h.cap hc
          rw [hq, List.length_cons] at this
          exact Nat.le_of_succ_le this
        · rw [← hnw]; exact hlen _ _
        · rw [hin]
          simp only [infl] at hacct ⊢
          omega
        · rw [hwk]
          simp only [wk] at hcnt ⊢
          omega
        · intro p hp hlt
          rw [hmem]
          have := hwr p hp hlt
          rw [hmem] at this
          exact this
        · refine phase_worker hphase rfl rfl rfl rfl rfl rfl ?_
          show k + ((a ++ Worker.exited :: b).map exd).sum = _
          rw [hex, hexs]
          simp only [exd]
          omega
  | busy rest ns =>
    have hgr : Good c rest := by
      have := hgw (.busy rest ns) (by simp)
      exact this
    cases rest with
    | nil =>
      simp only [workerStep, Option.some.injEq, Prod.mk.injEq] at hs
      obtain ⟨rfl, rfl⟩ := hs
      refine ⟨js, k, ⟨h.queue, h.cap, ?_, ?_, h.goodP, h.goodJ, h.goodS, hgm _ hnil, h.len, ?_, ?_, ?_, ?_⟩⟩
      · intro hx
        rw [hex] at hx
        exact hfifo hx
      · rw [← hnw]; exact hlen _ _
      · rw [hin]; exact hacct
      · rw [hwk]
        simp only [wk, work, List.filter_nil, List.length_nil] at hcnt ⊢
        omega
      · intro p hp hlt
        rw [hmem]
        have := hwr p hp hlt
        rw [hmem] at this
        exact this
      · refine phase_worker hphase rfl rfl rfl rfl rfl rfl ?_
        show k + ((a ++ Worker.report ns :: b).map exd).sum = _
        rw [hex, hexs]
        rfl
    | cons q rest =>
      obtain ⟨id, x⟩ := q
      simp only [workerStep] at hs
      by_cases hge : c.total ≤ id
      · rw [if_pos hge] at hs
        simp only [Option.some.injEq, Prod.mk.injEq] at hs
        obtain ⟨rfl, rfl⟩ := hs
        have hall : ∀ p ∈ (id, x) :: rest, c.total ≤ p.1 := by
          intro p hp
          rcases List.mem_cons.1 hp with rfl | hp
          · exact hge
          · exact Nat.le_trans hge (Nat.le_of_lt ((List.pairwise_cons.1 hgr.2).1 p hp))
        have hw0 : work c ((id, x) :: rest) = 0 := by
          unfold work
          rw [List.length_eq_zero_iff, List.filter_eq_nil_iff]
          intro p hp
          have := hall p hp
          simp only [decide_eq_true_eq]
          omega
        refine ⟨js, k, ⟨h.queue, h.cap, ?_, ?_, h.goodP, h.goodJ, h.goodS, hgm _ hnil, h.len, ?_, ?_, ?_, ?_⟩⟩
        · intro hx
          rw [hex] at hx
          exact hfifo hx
        · rw [← hnw]; exact hlen _ _
        · rw [hin]; exact hacct
        · rw [hwk]
          simp only [wk, hw0] at hcnt ⊢
          omega
        · intro p hp hlt
          rw [hmem]
          have := hwr p hp hlt
          rw [hmem] at this
          rcases this with h1 | h1 | h1 | h1 | h1
          · exact .inl h1
          · exact .inr (.inl h1)
          · exact .inr (.inr (.inl h1))
          · have := hall p h1
            omega
          · exact .inr (.inr (.inr (.inr h1)))
        · refine phase_worker hphase rfl rfl rfl rfl rfl rfl ?_
          show k + ((a ++ Worker.report ns :: b).map exd).sum = _
          rw [hex, hexs]
          rfl
      · rw [if_neg hge] at hs
        simp only [Option.some.injEq, Prod.mk.injEq] at hs
        obtain ⟨rfl, rfl⟩ := hs
        have hgr' : Good c rest := good_of_sublist (List.sublist_cons_self _ _) hgr
        have hidx : c.sentences[id]? = some x := hgr.1 (id, x) (by simp)
        refine ⟨js, k, ⟨h.queue, h.cap, ?_, ?_, h.goodP, h.goodJ, h.goodS, hgm _ hgr', ?_, ?_, ?_, ?_, ?_⟩⟩
        · intro hx
          rw [hex] at hx
          exact hfifo hx
        · rw [← hnw]; exact hlen _ _
        · show (s.scores.set id (c.score x)).length = _
          rw [List.length_set]; exact h.len
        · rw [hin]; exact hacct
        · rw [hwk]
          have : work c ((id, x) :: rest) = work c rest + 1 := by
            unfold work
            rw [List.filter_cons_of_pos (by simp only [decide_eq_true_eq]; omega), List.length_cons]
          simp only [wk, this] at hcnt ⊢
          omega
        · intro p hp hlt
          rw [hmem]
          have hgp : c.sentences[p.1]? = some p.2 := by
            obtain ⟨j, hj, hpj⟩ := List.mem_flatten.1 hp
            exact (h.goodP j hj).1 p hpj
          show (s.scores.set id (c.score x))[p.1]? = _ ∨ _
          by_cases he : id = p.1
          · left
            subst he
            rw [hidx, Option.some.injEq] at hgp
            rw [List.getElem?_set_self (by rw [h.len]; omega), hgp]
          · rw [List.getElem?_set_ne he]
            have := hwr p hp hlt
            rw [hmem] at this
            rcases this with h1 | h1 | h1 | h1 | h1
            · exact .inl h1
            · exact .inr (.inl h1)
            · exact .inr (.inr (.inl h1))
            · rcases List.mem_cons.1 h1 with rfl | h1
              · exact absurd rfl he
              · exact .inr (.inr (.inr (.inl h1)))
            · exact .inr (.inr (.inr (.inr h1)))
        · refine phase_worker hphase rfl rfl rfl rfl rfl rfl ?_
          show k + ((a ++ Worker.busy rest (ns + 1) :: b).map exd).sum = _
          rw [hex, hexs]
          rfl
  | report ns =>
    simp only [workerStep] at hs
    split at hs
    · simp only [Option.some.injEq, Prod.mk.injEq] at hs
      obtain ⟨rfl, rfl⟩ := hs
      refine ⟨js, k, ⟨h.queue, h.cap, ?_, ?_, h.goodP, h.goodJ, h.goodS, hgm _ hnil, h.len, ?_, ?_, ?_, ?_⟩⟩
      · intro hx
        rw [hex] at hx
        exact hfifo hx
      · rw [← hnw]; exact hlen _ _
      · rw [hin]
        simp only [infl, List.length_append, List.length_singleton] at hacct ⊢
        omega
      · rw [hwk]
        simp only [wk, List.sum_append, List.sum_cons, List.sum_nil] at hcnt ⊢
        omega
      · intro p hp hlt
        rw [hmem]
        have := hwr p hp hlt
        rw [hmem] at this
        exact this
      · refine phase_worker hphase rfl rfl rfl rfl rfl rfl ?_
        show k + ((a ++ Worker.idle :: b).map exd).sum = _
        rw [hex, hexs]
        rfl
    · simp at hs
  | exited => simp [workerStep] at hs

theorem inv_step {c : Cfg α S} (hk : 0 < c.chunk) {s t : St α S} {pushed js : List (Job α)} {k : Nat}
    (h : Inv c s pushed js k) (hs : Step c s t) : ∃ pushed' js' k', Inv c t pushed' js' k' := by
  cases hs with
  | main hm => exact inv_main hk h hm
  | worker hw hm =>
    obtain ⟨js', k', h'⟩ := inv_worker h hw hm
    exact ⟨pushed, js', k', h'⟩

theorem inv_reach {c : Cfg α S} (hk : 0 < c.chunk) {s : St α S} (h : Reach c s) :
    ∃ pushed js k, Inv c s pushed js k := by
  induction h with
  | start => exact ⟨[], [], 0, inv_start c⟩
  | step _ hs ih =>
    obtain ⟨_, _, _, hi⟩ := ih
    exact inv_step hk hi hs

/-! ### The result -/

theorem le_sum_mem {l : List Nat} {x : Nat} (h : x ∈ l) : x ≤ l.sum := by
  induction l with
  | nil => simp at h
  | cons a l ih =>
    rw [List.sum_cons]
    rcases List.mem_cons.1 h with rfl | h
    · omega
    · have := ih h; omega

theorem sum_zero_iff {l : List Nat} : l.sum = 0 ↔ ∀ x ∈ l, x = 0 := by
  constructor
  · intro h x hx
    have := le_sum_mem hx
    omega
  · intro h
    induction l with
    | nil => rfl
    | cons a l ih =>
      rw [List.sum_cons, h a (by simp), ih fun x hx => h x (by simp [hx])]

theorem filter_lt_range (m t : Nat) :
    ((List.range m).filter fun i => decide (i < t)).length = min m t := by
  induction m with
  | zero => simp
  | succ m ih =>
    rw [List.range_succ, List.filter_append, List.length_append, ih]
    by_cases h : m < t
    · simp [h]; omega
    · simp [h]; omega

theorem work_sum (c : Cfg α S) (l : List (Job α)) : (l.map (work c)).sum = work c l.flatten := by
  induction l with
  | nil => rfl
  | cons j l ih =>
    rw [List.map_cons, List.sum_cons, ih, List.flatten_cons]
    unfold work
    rw [List.filter_append, List.length_append]

theorem work_eq_fst (c : Cfg α S) (l : Job α) :
    work c l = ((l.map Prod.fst).filter fun i => decide (i < c.total)).length := by
  unfold work
  rw [List.filter_map, List.length_map]
  rfl

/-- A prefix of the jobs holds the first sentences. -/
theorem prefix_fst {c : Cfg α S} (hk : 0 < c.chunk) {pushed r : List (Job α)} (h : c.jobs = pushed ++ r) :
    pushed.flatten = (enum c.sentences).take pushed.flatten.length := by
  have hflat := Chunk.C15_concat hk (enum c.sentences)
  have : pushed.flatten ++ r.flatten = enum c.sentences := by
    rw [← List.flatten_append, ← h]; exact hflat
  rw [← this, List.take_left']
  rfl

theorem result_of_finished {c : Cfg α S} (hk : 0 < c.chunk) {s : St α S} {pushed js : List (Job α)}
    {k : Nat} (h : Inv c s pushed js k) (hm : s.main = .finished) : result s = expected c := by
  have hph := h.phase
  unfold PhaseInv at hph
  simp only [hm] at hph
  obtain ⟨⟨⟨r, hr⟩, hcov⟩, hdone, _⟩ := hph
  have hpre := prefix_fst hk hr
  have hflat := Chunk.C15_concat hk (enum c.sentences)
  have hle : pushed.flatten.length ≤ c.sentences.length := by
    have h1 : pushed.flatten ++ r.flatten = enum c.sentences := by
      rw [← List.flatten_append, ← hr]; exact hflat
    have := congrArg List.length h1
    rw [List.length_append, enum_length] at this
    omega
  have hmin : min pushed.flatten.length c.total = min c.sentences.length c.total := by
    rcases hcov with h1 | h1
    · have : pushed.flatten.length = c.sentences.length := by
        rw [h1]
        show (Chunk.chunks c.chunk (enum c.sentences)).flatten.length = _
        rw [hflat, enum_length]
      rw [this]
    · omega
  have hacct := h.acct
  have hjs : js = [] := List.length_eq_zero_iff.1 (by omega)
  have hprog : s.progQ = [] := List.length_eq_zero_iff.1 (by omega)
  have hinf : (s.workers.map infl).sum = 0 := by omega
  have hidle : ∀ w ∈ s.workers, infl w = 0 := by
    intro w hw
    exact sum_zero_iff.1 hinf _ (List.mem_map_of_mem hw)
  have hwk0 : (s.workers.map (wk c)).sum = 0 := by
    rw [sum_zero_iff]
    intro x hx
    obtain ⟨w, hw, rfl⟩ := List.mem_map.1 hx
    have := hidle w hw
    cases w with
    | idle => rfl
    | busy rest ns => simp [infl] at this
    | report ns => simp [infl] at this
    | exited => rfl
  have hrest0 : ∀ p, p ∉ s.workers.flatMap restOf := by
    intro p hp
    obtain ⟨w, hw, hpw⟩ := List.mem_flatMap.1 hp
    have := hidle w hw
    cases w with
    | idle => simp [restOf] at hpw
    | busy rest ns => simp [infl] at this
    | report ns => simp [restOf] at hpw
    | exited => simp [restOf] at hpw
  have hfst : pushed.flatten.map Prod.fst = List.range pushed.flatten.length := by
    conv_lhs => rw [hpre]
    rw [List.map_take, enum_fst, List.take_range]
    congr 1
    omega
  have hcount : s.count = min c.sentences.length c.total := by
    have := h.cnt
    rw [hprog, hwk0, hjs, work_sum c pushed, work_eq_fst, hfst, filter_lt_range, hmin] at this
    simpa using this
  unfold result expected
  apply List.ext_getElem?
  intro i
  rw [hcount, List.getElem?_take, List.getElem?_map, List.getElem?_take]
  by_cases hi : i < min c.sentences.length c.total
  · have hi1 : i < c.sentences.length := by omega
    have hi2 : i < c.total := by omega
    rw [if_pos hi, if_pos hi2, List.getElem?_eq_getElem hi1, Option.map_some]
    have hmem : (i, c.sentences[i]) ∈ pushed.flatten := by
      have : i ∈ pushed.flatten.map Prod.fst := by
        rw [hfst, List.mem_range]; omega
      obtain ⟨p, hp, he⟩ := List.mem_map.1 this
      have hpe : p ∈ enum c.sentences := by
        rw [hpre] at hp
        exact List.mem_of_mem_take hp
      have := mem_enum hpe
      rw [he, List.getElem?_eq_getElem hi1, Option.some.injEq] at this
      rw [this, ← he]
      exact hp
    rcases h.written _ hmem hi2 with h1 | h1 | h1
    · exact h1
    · rw [hjs] at h1; simp at h1
    · exact absurd h1 (hrest0 _)
  · rw [if_neg hi]
    by_cases hi2 : i < c.total
    · rw [if_pos hi2, List.getElem?_eq_none (by omega)]
      rfl
    · rw [if_neg hi2]
      rfl

/-- **C111.** Whatever the interleaving of the threads, if `score` returns, it returns the scores of the
first `total_sentences` sentences, in the order of the sentences. -/
theorem C111_result (c : Cfg α S) (hk : 0 < c.chunk) {s : St α S} (h : Reach c s)
    (hm : s.main = .finished) : result s = expected c := by
  obtain ⟨_, _, _, hi⟩ := inv_reach hk h
  exact result_of_finished hk hi hm

/-! ### No deadlock -/

/-- A worker that is neither blocked nor ended gives a step. -/
theorem step_of_worker {c : Cfg α S} {s : St α S} {w : Worker α} (hw : w ∈ s.workers)
    (h : workerStep c s w ≠ none) : ∃ t, Step c s t := by
  obtain ⟨a, b, hab⟩ := List.append_of_mem hw
  obtain ⟨⟨t, w'⟩, ht⟩ := Option.ne_none_iff_exists'.1 h
  exact ⟨_, .worker hab ht⟩

/-- **C111.** No schedule leads to a deadlock: with at least one worker, one sentence and a positive
chunk size, in every state before the end some thread can go on; and `score` never fails. -/
theorem C111_no_deadlock (c : Cfg α S) (hk : 0 < c.chunk) (hw : 0 < c.workers) (hne : c.sentences ≠ [])
    {s : St α S} (h : Reach c s) :
    s.main ≠ .crashed ∧ (s.main = .finished ∨ ∃ t, Step c s t) := by
  obtain ⟨pushed, js, k, hi⟩ := inv_reach hk h
  have hph := hi.phase
  unfold PhaseInv at hph
  have hpc : c.progCap = c.jobCap + c.workers := by
    unfold Cfg.progCap Cfg.jobCap; rw [Nat.succ_mul]
  have hinfl := infl_le s.workers
  rw [hi.nw] at hinfl
  have hacct := hi.acct
  have hinfl_pos : ∀ w ∈ s.workers, infl w ≤ (s.workers.map infl).sum := by
    intro w hw
    exact le_sum_mem (List.mem_map_of_mem hw)
  have hbusy : ∀ w ∈ s.workers, ∀ rest ns, w = .busy rest ns → ∃ t, Step c s t := by
    rintro w hw rest ns rfl
    refine step_of_worker hw ?_
    cases rest with
    | nil => simp [workerStep]
    | cons q rest =>
      obtain ⟨id, x⟩ := q
      simp only [workerStep]
      split <;> simp
  have hreport : (c.jobCap ≠ 0 → pushed.length ≤ s.doneJobs + c.jobCap + c.workers) →
      c.jobCap ≠ 0 → ∀ w ∈ s.workers, ∀ ns, w = .report ns → ∃ t, Step c s t := by
    rintro hb hc w hw ns rfl
    refine step_of_worker hw ?_
    have h1 := hb hc
    have h2 := hinfl_pos _ hw
    simp only [infl] at h2
    have : room s.progQ c.progCap = true := by
      rw [room_iff]; intro _; omega
    simp [workerStep, this]
  have hidle : s.jobQ ≠ [] → ∀ w ∈ s.workers, w = .idle → ∃ t, Step c s t := by
    rintro hq w hw rfl
    refine step_of_worker hw ?_
    cases hjq : s.jobQ with
    | nil => exact absurd hjq hq
    | cons j q => cases j <;> simp [workerStep, hjq]
  -- a worker that has not ended
  have hlive : (s.workers.map exd).sum < c.workers → ∃ w ∈ s.workers, w ≠ .exited := by
    intro hlt
    by_contra hcon
    have hall : ∀ w ∈ s.workers, w = .exited := by
      intro w hw
      by_contra hx
      exact hcon ⟨w, hw, hx⟩
    have : s.workers = List.replicate c.workers .exited := by
      rw [List.eq_replicate_iff]
      exact ⟨hi.nw, hall⟩
    rw [this] at hlt
    simp [exd] at hlt
  -- a blocked `put`
  have hblocked : (c.jobCap ≠ 0 → pushed.length ≤ s.doneJobs + c.jobCap + c.workers) →
      (s.workers.map exd).sum < c.workers → ¬ room s.jobQ c.jobCap = true → ∃ t, Step c s t := by
    intro hb hx hr
    rw [room_iff] at hr
    simp only [Classical.not_imp, Nat.not_lt] at hr
    obtain ⟨hc, hfull⟩ := hr
    obtain ⟨w, hwm, hwx⟩ := hlive hx
    cases w with
    | idle => exact hidle (by intro h0; rw [h0] at hfull; simp at hfull; exact hc hfull) _ hwm rfl
    | busy rest ns => exact hbusy _ hwm _ _ rfl
    | report ns => exact hreport hb hc _ hwm _ rfl
    | exited => exact absurd rfl hwx
  cases hm : s.main with
  | pull =>
    refine ⟨by simp, .inr ?_⟩
    have : mainStep c s ≠ none := by
      unfold mainStep
      simp only [hm]
      cases s.src with
      | nil => cases s.jobNo <;> simp
      | cons job rest => simp only; split <;> simp
    obtain ⟨t, ht⟩ := Option.ne_none_iff_exists'.1 this
    exact ⟨t, .main ht⟩
  | put job =>
    simp only [hm] at hph
    refine ⟨by simp, .inr ?_⟩
    by_cases hr : room s.jobQ c.jobCap = true
    · exact ⟨_, .main (t := { s with jobQ := s.jobQ ++ [some job], main := .drain })
        (by simp [mainStep, hm, hr])⟩
    · exact hblocked hph.2.2.2.2.2.2 (by rw [hph.2.2.1]; exact hw) hr
  | sentinels m =>
    simp only [hm] at hph
    refine ⟨by simp, .inr ?_⟩
    cases m with
    | zero => exact ⟨_, .main (t := { s with pushDone := true, main := .drain }) (by simp [mainStep, hm])⟩
    | succ m =>
      by_cases hr : room s.jobQ c.jobCap = true
      · exact ⟨_, .main (t := { s with jobQ := s.jobQ ++ [none], main := .sentinels m })
          (by simp [mainStep, hm, hr])⟩
      · exact hblocked hph.2.2.2.2.2 (by have := hph.2.2.2.2.1; omega) hr
  | drain =>
    simp only [hm] at hph
    obtain ⟨p1, p2, p3⟩ := hph
    refine ⟨by simp, .inr ?_⟩
    by_cases hcond : s.doneJobs < s.jobNo.getD 0 + 1 ∨ s.pushDone = false
    · cases hq : s.progQ with
      | cons ns q =>
        exact ⟨_, .main (t := { s with progQ := q, count := s.count + ns, doneJobs := s.doneJobs + 1 })
          (by unfold mainStep; simp only [hm, if_pos hcond, hq])⟩
      | nil =>
        by_cases hpd : s.pushDone = true
        · rcases p3 with ⟨q1, _⟩ | ⟨q1, q2, q3⟩
          · rw [q1] at hpd; simp at hpd
          · have hlt : s.doneJobs < pushed.length := by
              rcases hcond with h1 | h1
              · rw [p2] at h1
                simp only [Option.getD_some] at h1
                omega
              · rw [h1] at hpd; simp at hpd
            rw [hq] at hacct
            simp only [List.length_nil] at hacct
            by_cases hz : (s.workers.map infl).sum = 0
            · have hjs : js ≠ [] := by
                intro h0
                rw [h0] at hacct
                simp only [List.length_nil] at hacct
                omega
              have hex0 : (s.workers.map exd).sum = 0 := by
                rcases Nat.eq_zero_or_pos (s.workers.map exd).sum with h0 | h0
                · exact h0
                · exact absurd (hi.fifo h0) hjs
              obtain ⟨w, hwm, hwx⟩ := hlive (by omega)
              cases w with
              | idle =>
                refine hidle ?_ _ hwm rfl
                rw [hi.queue]
                intro h0
                rw [List.append_eq_nil_iff, List.map_eq_nil_iff] at h0
                exact hjs h0.1
              | busy rest ns => exact hbusy _ hwm _ _ rfl
              | report ns =>
                have := hinfl_pos _ hwm
                rw [hz] at this
                simp [infl] at this
              | exited => exact absurd rfl hwx
            · have : ∃ w ∈ s.workers, infl w ≠ 0 := by
                by_contra hcon
                apply hz
                rw [sum_zero_iff]
                intro x hx
                obtain ⟨w, hwm, rfl⟩ := List.mem_map.1 hx
                by_contra hne
                exact hcon ⟨w, hwm, hne⟩
              obtain ⟨w, hwm, hwi⟩ := this
              cases w with
              | idle => simp [infl] at hwi
              | busy rest ns => exact hbusy _ hwm _ _ rfl
              | report ns =>
                refine step_of_worker hwm ?_
                have : room s.progQ c.progCap = true := by
                  rw [room_iff, hq]
                  intro h0
                  simp only [List.length_nil]
                  omega
                simp [workerStep, this]
              | exited => simp [infl] at hwi
        · exact ⟨_, .main (t := { s with main := .pull }) (by
            unfold mainStep; simp only [hm, if_pos hcond, hq]; rw [if_neg hpd])⟩
    · exact ⟨_, .main (t := { s with main := .finished }) (by
        unfold mainStep; simp only [hm, if_neg hcond])⟩
  | finished => exact ⟨by simp, .inl rfl⟩
  | crashed =>
    simp only [hm] at hph
    exfalso
    have := Chunk.C15_concat hk (enum c.sentences)
    unfold Cfg.jobs at hph
    rw [hph] at this
    have h2 := enum_length c.sentences
    rw [← this] at h2
    simp at h2
    exact hne (List.length_eq_zero_iff.1 h2.symm)

/-! ### Every schedule ends -/

/-- Steps left for a job in the queue. -/
def jobCost (j : Job α) : Nat := j.length + 4

/-- Steps left for an entry of the queue. -/
def entryCost : Option (Job α) → Nat
  | some j => jobCost j
  | none => 1

/-- Steps left for a worker. -/
def workerCost : Worker α → Nat
  | .idle => 0
  | .busy rest _ => rest.length + 3
  | .report _ => 2
  | .exited => 0

/-- Steps left for the calling thread. -/
def mainCost (c : Cfg α S) (s : St α S) : Nat :=
  match s.main with
  | .pull => (s.src.map fun j => jobCost j + 3).sum + 2 * c.workers + 4
  | .put job => (s.src.map fun j => jobCost j + 3).sum + 2 * c.workers + 4 + jobCost job + 2
  | .sentinels k => 2 * k + 3
  | .drain => if s.pushDone then 2 else (s.src.map fun j => jobCost j + 3).sum + 2 * c.workers + 5
  | .finished => 0
  | .crashed => 0

/-- An upper bound of the number of steps left. -/
def cost (c : Cfg α S) (s : St α S) : Nat :=
  mainCost c s + (s.jobQ.map entryCost).sum + s.progQ.length + (s.workers.map workerCost).sum

theorem cost_main {c : Cfg α S} {s t : St α S} (h : mainStep c s = some t) : cost c t < cost c s := by
  unfold mainStep at h
  unfold cost
  cases hm : s.main with
  | pull =>
    simp only [hm] at h
    cases hsrc : s.src with
    | nil =>
      simp only [hsrc] at h
      cases hj : s.jobNo with
      | none =>
        simp only [hj, Option.some.injEq] at h
        subst h
        simp only [mainCost, hm]
        omega
      | some n =>
        simp only [hj, Option.some.injEq] at h
        subst h
        simp only [mainCost, hm]
        omega
    | cons job rest =>
      simp only [hsrc] at h
      split at h
      · rw [Option.some.injEq] at h
        subst h
        simp only [mainCost, hm, hsrc, List.map_cons, List.sum_cons]
        omega
      · rw [Option.some.injEq] at h
        subst h
        simp only [mainCost, hm, hsrc, List.map_cons, List.sum_cons]
        omega
  | put job =>
    simp only [hm] at h
    split at h
    · rw [Option.some.injEq] at h
      subst h
      simp only [mainCost, hm, List.map_append, List.sum_append, List.map_cons, List.map_nil,
        List.sum_cons, List.sum_nil, entryCost]
      split
      · omega
      · omega
    · simp at h
  | sentinels m =>
    simp only [hm] at h
    cases m with
    | zero =>
      simp only [Option.some.injEq] at h
      subst h
      simp [mainCost, hm]
    | succ m =>
      simp only at h
      split at h
      · rw [Option.some.injEq] at h
        subst h
        simp only [mainCost, hm, List.map_append, List.sum_append, List.map_cons, List.map_nil,
          List.sum_cons, List.sum_nil, entryCost]
        omega
      · simp at h
  | drain =>
    simp only [hm] at h
    split at h
    · cases hq : s.progQ with
      | cons ns q =>
        simp only [hq, Option.some.injEq] at h
        subst h
        simp only [mainCost, hm, List.length_cons]
        omega
      | nil =>
        simp only [hq] at h
        split at h
        · simp at h
        · rename_i hpd
          rw [Option.some.injEq] at h
          subst h
          simp only [mainCost, hm, if_neg hpd, List.length_nil]
          omega
    · rw [Option.some.injEq] at h
      subst h
      simp only [mainCost, hm]
      split <;> omega
  | finished => simp [hm] at h
  | crashed => simp [hm] at h

theorem cost_worker {c : Cfg α S} {s t : St α S} {a b : List (Worker α)} {w w' : Worker α}
    (hw : s.workers = a ++ w :: b) (h : workerStep c s w = some (t, w')) :
    cost c { t with workers := a ++ w' :: b } < cost c s := by
  have hmc : t.main = s.main → t.src = s.src → t.pushDone = s.pushDone →
      mainCost c { t with workers := a ++ w' :: b } = mainCost c s := by
    intro h1 h2 h3
    unfold mainCost
    simp only [h1, h2, h3]
  have hsum : ∀ u : Worker α, ((a ++ u :: b).map workerCost).sum =
      (a.map workerCost).sum + workerCost u + (b.map workerCost).sum := by
    intro u; simp; omega
  have hs : (s.workers.map workerCost).sum =
      (a.map workerCost).sum + workerCost w + (b.map workerCost).sum := by rw [hw, hsum]
  unfold cost
  rw [hs]
  show mainCost c { t with workers := a ++ w' :: b } + (t.jobQ.map entryCost).sum + t.progQ.length +
    ((a ++ w' :: b).map workerCost).sum < _
  rw [hsum]
  cases w with
  | idle =>
    simp only [workerStep] at h
    cases hq : s.jobQ with
    | nil => simp [hq] at h
    | cons e q =>
      cases e with
      | none =>
        simp only [hq, Option.some.injEq, Prod.mk.injEq] at h
        obtain ⟨rfl, rfl⟩ := h
        rw [hmc rfl rfl rfl]
        simp only [List.map_cons, List.sum_cons, entryCost, workerCost]
        omega
      | some j =>
        simp only [hq, Option.some.injEq, Prod.mk.injEq] at h
        obtain ⟨rfl, rfl⟩ := h
        rw [hmc rfl rfl rfl]
        simp only [List.map_cons, List.sum_cons, entryCost, workerCost, jobCost]
        omega
  | busy rest ns =>
    cases rest with
    | nil =>
      simp only [workerStep, Option.some.injEq, Prod.mk.injEq] at h
      obtain ⟨rfl, rfl⟩ := h
      rw [hmc rfl rfl rfl]
      simp only [workerCost, List.length_nil]
      omega
    | cons p rest =>
      obtain ⟨id, x⟩ := p
      simp only [workerStep] at h
      split at h
      · simp only [Option.some.injEq, Prod.mk.injEq] at h
        obtain ⟨rfl, rfl⟩ := h
        rw [hmc rfl rfl rfl]
        simp only [workerCost, List.length_cons]
        omega
      · simp only [Option.some.injEq, Prod.mk.injEq] at h
        obtain ⟨rfl, rfl⟩ := h
        rw [hmc rfl rfl rfl]
        simp only [workerCost, List.length_cons]
        omega
  | report ns =>
    simp only [workerStep] at h
    split at h
    · simp only [Option.some.injEq, Prod.mk.injEq] at h
      obtain ⟨rfl, rfl⟩ := h
      rw [hmc rfl rfl rfl]
      simp only [workerCost, List.length_append, List.length_singleton]
      omega
    · simp at h
  | exited => simp [workerStep] at h

theorem cost_step {c : Cfg α S} {s t : St α S} (h : Step c s t) : cost c t < cost c s := by
  cases h with
  | main hm => exact cost_main hm
  | worker hw hm => exact cost_worker hw hm

/-- **C111.** Every schedule ends: there is no infinite execution. -/
theorem C111_terminates (c : Cfg α S) (run : Nat → St α S) : ¬ ∀ n, Step c (run n) (run (n + 1)) := by
  intro h
  have : ∀ n, cost c (run n) + n ≤ cost c (run 0) := by
    intro n
    induction n with
    | zero => simp
    | succ n ih =>
      have := cost_step (h n)
      omega
  have := this (cost c (run 0) + 1)
  omega

/-! ### No sentences, and how far the input is read -/

/-- **C111 (finding).** With no sentences (or chunk size 0), the call always fails with
UnboundLocalError: the only step of the calling thread is the crash, and the workers never get a job. -/
theorem C111_empty_crashes (c : Cfg α S) (h : c.sentences = [] ∨ c.chunk = 0) {s : St α S}
    (hr : Reach c s) :
    (s = start c ∧ ∀ t, Step c s t → t.main = .crashed) ∨ s.main = .crashed := by
  have hj : c.jobs = [] := by
    unfold Cfg.jobs
    rw [Chunk.chunks]
    rcases h with h | h <;> simp [h, enum]
  have hworker : ∀ (s : St α S) (t : St α S) (w w' : Worker α) (a b : List (Worker α)),
      s.workers = List.replicate c.workers .idle → s.jobQ = [] → s.workers = a ++ w :: b →
      workerStep c s w = some (t, w') → False := by
    intro s t w w' a b h1 h2 h3 h4
    have : w ∈ List.replicate c.workers Worker.idle := by rw [← h1, h3]; simp
    obtain rfl := List.eq_of_mem_replicate this
    simp [workerStep, h2] at h4
  have key : ∀ s, Reach c s → s.workers = List.replicate c.workers .idle ∧ s.jobQ = [] ∧
      (s = start c ∨ s.main = .crashed) := by
    intro s hs
    induction hs with
    | start => exact ⟨rfl, rfl, .inl rfl⟩
    | step h1 hst ih =>
      obtain ⟨i1, i2, i3⟩ := ih
      cases hst with
      | main hm =>
        rcases i3 with rfl | i3
        · simp only [mainStep, start, hj, Option.some.injEq] at hm
          subst hm
          exact ⟨rfl, rfl, .inr rfl⟩
        · simp [mainStep, i3] at hm
      | worker hw hm => exact (hworker _ _ _ _ _ _ i1 i2 hw hm).elim
  obtain ⟨k1, k2, k3⟩ := key s hr
  rcases k3 with rfl | k3
  · refine .inl ⟨rfl, ?_⟩
    intro t ht
    cases ht with
    | main hm =>
      simp only [mainStep, start, hj, Option.some.injEq] at hm
      subst hm
      rfl
    | worker hw hm => exact (hworker _ _ _ _ _ _ k1 k2 hw hm).elim
  · exact .inr k3

/-- **C111.** At most three chunks more than `total_sentences` are read from the input, however long it
is: with `n` jobs taken from the source, `(n - 2) * chunksize` is at most `total_sentences` + one chunk. -/
theorem C111_reads (c : Cfg α S) {s : St α S} (h : Reach c s) :
    s.nextNo * c.chunk ≤ c.total + 3 * c.chunk := by
  have key : (∀ (s : St α S), Reach c s →
      ((s.main = .pull ∨ (∃ j, s.main = .put j) ∨ (s.main = .drain ∧ s.pushDone = false)) →
        ((s.nextNo : Int) - 2) * c.chunk ≤ c.total) ∧
      ((s.nextNo : Int) - 3) * c.chunk ≤ c.total ∧
      ((∃ k, s.main = .sentinels k) → s.pushDone = false) ∧
      (s.main = .pull → s.pushDone = false) ∧ ((∃ j, s.main = .put j) → s.pushDone = false)) := by
    intro s hs
    induction hs with
    | start =>
      have h0 : (0 : Int) ≤ c.chunk := Int.natCast_nonneg _
      have h1 : (0 : Int) ≤ c.total := Int.natCast_nonneg _
      refine ⟨?_, ?_, by simp [start], by simp [start], by simp [start]⟩
      · intro _
        show (((0 : Nat) : Int) - 2) * (c.chunk : Int) ≤ c.total
        have : (((0 : Nat) : Int) - 2) * (c.chunk : Int) = -2 * (c.chunk : Int) := by simp
        omega
      · show (((0 : Nat) : Int) - 3) * (c.chunk : Int) ≤ c.total
        have : (((0 : Nat) : Int) - 3) * (c.chunk : Int) = -3 * (c.chunk : Int) := by simp
        omega
    | step h1 hst ih =>
      rename_i s t
      obtain ⟨i1, i2, i3, i4, i5⟩ := ih
      have hmono : ∀ n : Nat, ((n : Int) - 3) * c.chunk ≤ ((n : Int) - 2) * c.chunk := by
        intro n
        have h0 : (0 : Int) ≤ c.chunk := Int.natCast_nonneg _
        rw [Int.sub_mul, Int.sub_mul]
        omega
      cases hst with
      | worker hw hm =>
        rename_i t a b w w'
        have hsame : t.main = s.main ∧ t.nextNo = s.nextNo ∧ t.pushDone = s.pushDone := by
          cases w with
          | idle =>
            simp only [workerStep] at hm
            cases hq : s.jobQ with
            | nil => simp [hq] at hm
            | cons e q =>
              cases e <;>
              · simp only [hq, Option.some.injEq, Prod.mk.injEq] at hm
                obtain ⟨rfl, rfl⟩ := hm
                exact ⟨rfl, rfl, rfl⟩
          | busy rest ns =>
            cases rest with
            | nil =>
              simp only [workerStep, Option.some.injEq, Prod.mk.injEq] at hm
              obtain ⟨rfl, rfl⟩ := hm
              exact ⟨rfl, rfl, rfl⟩
            | cons p rest =>
              obtain ⟨id, x⟩ := p
              simp only [workerStep] at hm
              split at hm <;>
              · simp only [Option.some.injEq, Prod.mk.injEq] at hm
                obtain ⟨rfl, rfl⟩ := hm
                exact ⟨rfl, rfl, rfl⟩
          | report ns =>
            simp only [workerStep] at hm
            split at hm
            · simp only [Option.some.injEq, Prod.mk.injEq] at hm
              obtain ⟨rfl, rfl⟩ := hm
              exact ⟨rfl, rfl, rfl⟩
            · simp at hm
          | exited => simp [workerStep] at hm
        obtain ⟨e1, e2, e3⟩ := hsame
        simp only [e1, e2, e3]
        exact ⟨i1, i2, i3, i4, i5⟩
      | main hm =>
        unfold mainStep at hm
        cases hmm : s.main with
        | pull =>
          simp only [hmm] at hm
          have j1 := i1 (.inl hmm)
          have j4 := i4 hmm
          cases hsrc : s.src with
          | nil =>
            simp only [hsrc] at hm
            cases hj : s.jobNo <;>
            · simp only [hj, Option.some.injEq] at hm
              subst hm
              exact ⟨by simp, i2, fun _ => j4, by simp, by simp⟩
          | cons job rest =>
            simp only [hsrc] at hm
            split at hm
            · rw [Option.some.injEq] at hm
              subst hm
              refine ⟨by simp, ?_, fun _ => j4, by simp, by simp⟩
              show (((s.nextNo + 1 : Nat) : Int) - 3) * c.chunk ≤ c.total
              have e : ((s.nextNo + 1 : Nat) : Int) - 3 = (s.nextNo : Int) - 2 := by push_cast; omega
              rw [e]
              exact j1
            · rename_i hl
              rw [Option.some.injEq] at hm
              subst hm
              have e : ((s.nextNo + 1 : Nat) : Int) - 2 = (s.nextNo : Int) - 1 := by push_cast; omega
              have e3 : ((s.nextNo + 1 : Nat) : Int) - 3 = (s.nextNo : Int) - 2 := by push_cast; omega
              refine ⟨fun _ => ?_, ?_, by simp, by simp, fun _ => j4⟩
              · show (((s.nextNo + 1 : Nat) : Int) - 2) * c.chunk ≤ c.total
                rw [e]
                exact Int.not_lt.1 hl
              · show (((s.nextNo + 1 : Nat) : Int) - 3) * c.chunk ≤ c.total
                rw [e3]
                exact j1
        | put job =>
          simp only [hmm] at hm
          split at hm
          · rw [Option.some.injEq] at hm
            subst hm
            exact ⟨fun _ => i1 (.inr (.inl ⟨_, hmm⟩)), i2, by simp, by simp, by simp⟩
          · simp at hm
        | sentinels m =>
          simp only [hmm] at hm
          cases m with
          | zero =>
            simp only [Option.some.injEq] at hm
            subst hm
            exact ⟨by simp, i2, by simp, by simp, by simp⟩
          | succ m =>
            simp only at hm
            split at hm
            · rw [Option.some.injEq] at hm
              subst hm
              exact ⟨by simp, i2, fun _ => i3 ⟨_, hmm⟩, by simp, by simp⟩
            · simp at hm
        | drain =>
          simp only [hmm] at hm
          split at hm
          · cases hq : s.progQ with
            | cons ns q =>
              simp only [hq, Option.some.injEq] at hm
              subst hm
              refine ⟨fun hx => i1 ?_, i2, by simp [hmm], by simp [hmm], by simp [hmm]⟩
              simpa [hmm] using hx
            | nil =>
              simp only [hq] at hm
              split at hm
              · simp at hm
              · rename_i hpd
                rw [Option.some.injEq] at hm
                subst hm
                have hpd' : s.pushDone = false := by simpa using hpd
                exact ⟨fun _ => i1 (.inr (.inr ⟨hmm, hpd'⟩)), i2, by simp, fun _ => hpd', by simp⟩
          · rw [Option.some.injEq] at hm
            subst hm
            exact ⟨by simp, i2, by simp, by simp, by simp⟩
        | finished => simp [hmm] at hm
        | crashed => simp [hmm] at hm
  have := (key s h).2.1
  have e : (((s.nextNo : Nat) : Int) - 3) * (c.chunk : Int) =
      ((s.nextNo * c.chunk : Nat) : Int) - ((3 * c.chunk : Nat) : Int) := by
    push_cast; rw [Int.sub_mul]
  rw [e] at this
  omega

/-- **C111 (finding).** Without workers (`workers=0`) the call never returns. -/
theorem C111_no_workers (c : Cfg α S) (hk : 0 < c.chunk) (hw : c.workers = 0) (hne : c.sentences ≠ [])
    {s : St α S} (h : Reach c s) : s.main ≠ .finished := by
  intro hm
  obtain ⟨pushed, js, k, hi⟩ := inv_reach hk h
  have key : ∀ s, Reach c s → s.doneJobs = 0 ∧ s.progQ = [] ∧ s.workers = [] := by
    intro s hs
    induction hs with
    | start => exact ⟨rfl, rfl, by simp [start, hw]⟩
    | step h1 hst ih =>
      rename_i s t
      obtain ⟨i1, i2, i3⟩ := ih
      cases hst with
      | worker hw' _ => rw [i3] at hw'; simp at hw'
      | main hmm =>
        unfold mainStep at hmm
        split at hmm
        · split at hmm
          · split at hmm <;>
            · rw [Option.some.injEq] at hmm; subst hmm; exact ⟨i1, i2, i3⟩
          · split at hmm <;>
            · rw [Option.some.injEq] at hmm; subst hmm; exact ⟨i1, i2, i3⟩
        · split at hmm
          · rw [Option.some.injEq] at hmm; subst hmm; exact ⟨i1, i2, i3⟩
          · simp at hmm
        · rw [Option.some.injEq] at hmm; subst hmm; exact ⟨i1, i2, i3⟩
        · split at hmm
          · rw [Option.some.injEq] at hmm; subst hmm; exact ⟨i1, i2, i3⟩
          · simp at hmm
        · split at hmm
          · split at hmm
            · rename_i hq
              rw [i2] at hq
              simp at hq
            · split at hmm
              · simp at hmm
              · rw [Option.some.injEq] at hmm; subst hmm; exact ⟨i1, i2, i3⟩
          · rw [Option.some.injEq] at hmm; subst hmm; exact ⟨i1, i2, i3⟩
        · simp at hmm
        · simp at hmm
  have hph := hi.phase
  unfold PhaseInv at hph
  simp only [hm] at hph
  have h1 := hph.2.1
  rw [(key s h).1] at h1
  have h2 := hph.2.2
  omega

/-- **C111.** The guards: a model with no vocabulary or without hierarchical softmax is refused. -/
theorem C111_guard (n : Nat) (hs : Bool) :
    scoreGuard n hs = .ok () ↔ n ≠ 0 ∧ hs = true := by
  unfold scoreGuard
  by_cases hn : n = 0
  · simp [hn]
  · cases hs <;> simp [hn]

/-! ### A complete run, so that the hypotheses are met -/

/-- Three sentences, two of them scored, in chunks of one by one worker. -/
def exCfg : Cfg Nat Nat := ⟨[5, 6, 7], fun x => x * 10, 0, 2, 1, 1, 2⟩

/-- Run: the worker when it can, otherwise the calling thread. -/
def exRun : Nat → St Nat Nat → St Nat Nat
  | 0, s => s
  | n + 1, s =>
    match s.workers with
    | [w] =>
      match workerStep exCfg s w with
      | some (t, w') => exRun n { t with workers := [w'] }
      | none =>
        match mainStep exCfg s with
        | some t => exRun n t
        | none => s
    | _ => s

theorem exRun_reach (n : Nat) : ∀ s, Reach exCfg s → Reach exCfg (exRun n s) := by
  induction n with
  | zero => intro s h; exact h
  | succ n ih =>
    intro s h
    unfold exRun
    split
    · rename_i w hw
      split
      · rename_i t w' ht
        exact ih _ (h.step (.worker (a := []) (b := []) hw ht))
      · split
        · rename_i t ht
          exact ih _ (h.step (.main ht))
        · exact h
    · exact h

/-- A schedule of `exCfg` that returns, with the scores 50 and 60. -/
example : ∃ s, Reach exCfg s ∧ s.main = .finished ∧ result s = [50, 60] := by
  have hj : exCfg.jobs = [[(0, 5)], [(1, 6)], [(2, 7)]] := by
    simp [Cfg.jobs, exCfg, enum, Chunk.chunks]
  have hs : start exCfg = ⟨.pull, [[(0, 5)], [(1, 6)], [(2, 7)]], 0, none, false, 0, 0, [], [], [0, 0],
      [.idle]⟩ := by
    unfold start
    rw [hj]
    rfl
  refine ⟨exRun 100 (start exCfg), exRun_reach 100 _ .start, ?_, ?_⟩
  · rw [hs]; rfl
  · rw [hs]; rfl

example : expected exCfg = [50, 60] := by simp [expected, exCfg]

end Verif.Score
