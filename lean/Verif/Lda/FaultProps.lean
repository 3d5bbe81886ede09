import Verif.Lda.FaultModel
import Verif.Lda.DispatcherProps
import Mathlib.Algebra.BigOperators.Group.List.Basic
import Mathlib.Data.List.Forall2
import Mathlib.Tactic.Common

/-!
# C130: distributed training with failing and dying workers
-/

namespace Verif.Lda.Dispatch

variable {J : Type}

/-! ## Specification -/

/-- the request loops of all workers: asking, working on a job, or about to be started by a report -/
def loops (s : FSt J) : Nat := s.asking.sum + s.held.length + s.pending.length

/-- the client waits in `getstate` or has not called it yet: nothing is being collected -/
def Waiting (s : FSt J) : Prop := s.phase = .idle ∨ s.phase = .putting

/-! ## Refinement: a lost job is a job that is never processed -/

/-- a faulty state and the state of the faultless system in which the lost jobs are simply still held -/
structure Sim (f : FSt J) (b : St J) : Prop where
  script : b.script = f.script
  phase : b.phase = f.phase
  queue : b.queue = f.queue
  received : b.received = f.received
  done : b.done = f.done
  results : b.results = f.results
  len : b.stats.length = f.stats.length
  held : ∃ (z : List (Nat × J)) (p : Nat), b.held.Perm (f.held ++ z) ∧ b.pending = f.pending.length + p ∧
    f.lost = z.length + p
  stats : f.lost = 0 → ∀ w : Nat, f.alive[w]? = some true → b.stats[w]? = f.stats[w]?

theorem sim_busy {n : Nat} {script : List (Op J)} {full : List (List J)} (hs : expected none script = some full)
    {f : FSt J} {b : St J} (hb : Reach n script b) (h : Sim f b)
    (hne : f.held ≠ [] ∨ 0 < f.lost ∨ f.pending ≠ [] ∨ f.queue ≠ []) : Waiting f := by
  obtain ⟨cur, rs, tail, -, -, -, hph⟩ := reach_inv n script full hs b hb
  obtain ⟨z, p, h1, h2, h3⟩ := h.held
  have hq : ¬ Quiet b := by
    rintro ⟨q1, q2, q3⟩
    rw [q2] at h1
    have h4 := h1.length_eq
    simp only [List.length_nil, List.length_append] at h4
    have h5 : f.held = [] := List.length_eq_zero_iff.mp (by omega)
    have h6 : f.pending = [] := List.length_eq_zero_iff.mp (by omega)
    rcases hne with hne | hne | hne | hne
    · exact hne h5
    · omega
    · exact hne h6
    · exact hne (h.queue ▸ q1)
  unfold Waiting
  rw [← h.phase]
  unfold PhaseInv at hph
  cases hp : b.phase with
  | idle => exact .inl rfl
  | putting => exact .inr rfl
  | resetting k =>
    rw [hp] at hph
    cases cur with
    | none => exact absurd hph.1 hq
    | some l => exact absurd hph.2.1 hq
  | collecting k acc =>
    rw [hp] at hph
    cases cur with
    | none => exact hph.elim
    | some l => exact absurd hph.1 hq

theorem sim_step {n : Nat} {script : List (Op J)} {full : List (List J)} (hs : expected none script = some full)
    {pings : Bool} {f g : FSt J} {b : St J} (hb : Reach n script b) (h : Sim f b) (st : FStep pings f g) :
    ∃ c, Reach n script c ∧ Sim g c := by
  obtain ⟨z, p, hz, hp, hl⟩ := h.held
  have hbusy := fun hne => sim_busy hs hb h hne
  have hnl : ∀ {P : Prop}, (∀ k, f.phase = .resetting k → 0 < f.lost → P) := by
    intro P k hk hlt
    rcases hbusy (.inr (.inl hlt)) with e | e <;> rw [e] at hk <;> cases hk
  have hnc : ∀ {P : Prop}, (∀ k acc, f.phase = .collecting k acc → 0 < f.lost → P) := by
    intro P k acc hk hlt
    rcases hbusy (.inr (.inl hlt)) with e | e <;> rw [e] at hk <;> cases hk
  cases st with
  | putCount j r _ h1 h2 =>
    refine ⟨_, hb.step _ _ (Step.putCount b j r (h.phase.trans h1) (h.script.trans h2)), ?_⟩
    exact ⟨h.script, rfl, h.queue, by simp [h.received], h.done, h.results, h.len, ⟨z, p, hz, hp, hl⟩, h.stats⟩
  | putQueue j r _ h1 h2 =>
    refine ⟨_, hb.step _ _ (Step.putQueue b j r (h.phase.trans h1) (h.script.trans h2)), ?_⟩
    exact ⟨rfl, rfl, by simp [h.queue], h.received, h.done, h.results, h.len, ⟨z, p, hz, hp, hl⟩, h.stats⟩
  | resetBegin r _ h1 h2 =>
    refine ⟨_, hb.step _ _ (Step.resetBegin b r (h.phase.trans h1) (h.script.trans h2)), ?_⟩
    exact ⟨h.script, rfl, h.queue, h.received, h.done, h.results, h.len, ⟨z, p, hz, hp, hl⟩, h.stats⟩
  | resetWorker k _ h1 h2 h3 =>
    refine ⟨_, hb.step _ _ (Step.resetWorker b k (h.phase.trans h1) (by rw [h.len]; exact h2)), ?_⟩
    refine ⟨h.script, rfl, h.queue, h.received, h.done, h.results, by simp [h.len], ⟨z, p, hz, hp, hl⟩, ?_⟩
    intro h0 w hw
    dsimp only at h0 hw ⊢
    simp only [List.getElem?_set, h.len]
    split
    · rfl
    · exact h.stats h0 w hw
  | resetRaise k _ h1 h2 =>
    exact ⟨b, hb, h.script, h.phase, h.queue, h.received, h.done, h.results, h.len, ⟨z, p, hz, hp, hl⟩, h.stats⟩
  | resetEnd r _ h1 h2 =>
    refine ⟨_, hb.step _ _ (Step.resetEnd b r (by rw [h.len]; exact h.phase.trans h1) (h.script.trans h2)), ?_⟩
    exact ⟨rfl, rfl, h.queue, rfl, rfl, h.results, h.len, ⟨z, p, hz, hp, hl⟩, h.stats⟩
  | getBegin r _ h1 h2 h3 =>
    refine ⟨_, hb.step _ _ (Step.getBegin b r (h.phase.trans h1) (h.script.trans h2) (by rw [h.done, h.received]; exact h3)), ?_⟩
    exact ⟨h.script, rfl, h.queue, h.received, h.done, h.results, h.len, ⟨z, p, hz, hp, hl⟩, h.stats⟩
  | pingRaise r k _ _ h1 h2 h3 h4 =>
    exact ⟨b, hb, h.script, h.phase, h.queue, h.received, h.done, h.results, h.len, ⟨z, p, hz, hp, hl⟩, h.stats⟩
  | getWorker k acc l _ h1 h2 h3 =>
    have h0 : f.lost = 0 := by
      by_contra hc
      exact hnc k acc h1 (Nat.pos_of_ne_zero hc)
    refine ⟨_, hb.step _ _ (Step.getWorker b k acc l (h.phase.trans h1) (by rw [h.stats h0 k h3]; exact h2)), ?_⟩
    exact ⟨h.script, rfl, h.queue, h.received, h.done, h.results, h.len, ⟨z, p, hz, hp, hl⟩, h.stats⟩
  | getRaise k acc _ h1 h2 =>
    exact ⟨b, hb, h.script, h.phase, h.queue, h.received, h.done, h.results, h.len, ⟨z, p, hz, hp, hl⟩, h.stats⟩
  | getEnd acc r _ h1 h2 =>
    refine ⟨_, hb.step _ _ (Step.getEnd b acc r (by rw [h.len]; exact h.phase.trans h1) (h.script.trans h2)), ?_⟩
    exact ⟨rfl, rfl, h.queue, h.received, h.done, by simp [h.results], h.len, ⟨z, p, hz, hp, hl⟩, h.stats⟩
  | take w a j q h1 h2 h3 h4 =>
    refine ⟨_, hb.step _ _ (Step.take b w j q (by rw [h.len]; exact h1) (h.queue.trans h4)), ?_⟩
    refine ⟨h.script, h.phase, rfl, h.received, h.done, h.results, h.len, ⟨z, p, ?_, hp, hl⟩, h.stats⟩
    dsimp only
    refine (hz.append_right _).trans ?_
    rw [List.append_assoc, List.append_assoc]
    exact List.perm_append_comm.append_left _
  | stop w a h1 h2 h3 =>
    exact ⟨b, hb, h.script, h.phase, h.queue, h.received, h.done, h.results, h.len, ⟨z, p, hz, hp, hl⟩, h.stats⟩
  | process x w j y l h1 h2 h3 =>
    have hm : (w, j) ∈ b.held := by rw [hz.mem_iff, h2]; simp
    obtain ⟨x', y', hxy⟩ := List.append_of_mem hm
    have hw : w < b.stats.length := by rw [h.len]; exact (List.getElem?_eq_some_iff.mp h3).1
    refine ⟨_, hb.step _ _ (Step.process b x' w j y' _ hxy (List.getElem?_eq_getElem hw)), ?_⟩
    refine ⟨h.script, h.phase, h.queue, h.received, h.done, h.results, by simp [h.len], ⟨z, p, ?_, ?_, hl⟩, ?_⟩
    · dsimp only
      rw [hxy, h2] at hz
      rw [List.append_assoc, List.cons_append] at hz
      have e : ((w, j) :: (x' ++ y')).Perm ((w, j) :: (x ++ (y ++ z))) :=
        (List.perm_middle.symm.trans hz).trans List.perm_middle
      rw [List.append_assoc]
      exact e.cons_inv
    · dsimp only; rw [hp]; simp; omega
    · intro h0 v hv
      have e0 := h.stats h0 w h1
      rw [h3, List.getElem?_eq_getElem hw, Option.some.injEq] at e0
      dsimp only at hv ⊢
      simp only [List.getElem?_set, h.len, e0]
      split
      · rfl
      · exact h.stats h0 v hv
  | jobdone x w y h1 =>
    rw [h1] at hp
    have hp' : b.pending = (x.length + y.length + p) + 1 := by
      rw [hp]; simp; omega
    refine ⟨_, hb.step _ _ (Step.jobdone b _ hp'), ?_⟩
    refine ⟨h.script, h.phase, h.queue, h.received, by simp [h.done], h.results, h.len, ⟨z, p, hz, ?_, hl⟩, h.stats⟩
    dsimp only; simp
  | fail x w j y l tr h1 h2 h3 =>
    refine ⟨b, hb, h.script, h.phase, h.queue, h.received, h.done, h.results, by simp [h.len], ⟨(w, j) :: z, p, ?_, hp, ?_⟩, ?_⟩
    · dsimp only
      refine hz.trans ?_
      rw [h2, List.append_assoc, List.append_assoc, List.cons_append]
      exact List.Perm.append_left _ List.perm_middle.symm
    · dsimp only; simp; omega
    · intro h0; simp at h0
  | die w h1 =>
    refine ⟨b, hb, h.script, h.phase, h.queue, h.received, h.done, h.results, by simp [h.len],
      ⟨f.held.filter (fun p => decide (p.1 = w)) ++ z, p, ?_, hp, ?_⟩, ?_⟩
    · dsimp only
      refine hz.trans ?_
      rw [← List.append_assoc]
      refine List.Perm.append_right _ ?_
      have := List.filter_append_perm (fun p : Nat × J => decide (p.1 ≠ w)) f.held
      refine this.symm.trans (List.Perm.append_left _ ?_)
      apply List.Perm.of_eq
      apply List.filter_congr
      intro q _
      simp
    · dsimp only; simp only [List.length_append]; omega
    · intro h0 v hv
      dsimp only at h0 hv ⊢
      rw [List.getElem?_set] at hv ⊢
      split at hv
      · split at hv <;> simp at hv
      · rename_i hne
        rw [if_neg hne]
        exact h.stats (by omega) v hv
  | loseReport x w y h1 h2 =>
    refine ⟨b, hb, h.script, h.phase, h.queue, h.received, h.done, h.results, h.len, ⟨z, p + 1, hz, ?_, ?_⟩, ?_⟩
    · dsimp only; rw [hp, h2]; simp; omega
    · dsimp only; omega
    · intro h0; simp at h0

theorem sim_init (n : Nat) (script : List (Op J)) : Sim (finit n script) (init n script) :=
  ⟨rfl, rfl, rfl, rfl, rfl, rfl, by simp [finit, init], ⟨[], 0, by simp [finit, init], by simp [finit, init], by simp [finit]⟩,
    fun _ _ _ => rfl⟩

theorem sim_runs {n : Nat} {script : List (Op J)} {full : List (List J)} (hs : expected none script = some full)
    {pings : Bool} {s : FSt J} (h : FRuns pings (finit n script) s) : ∃ b, Reach n script b ∧ Sim s b := by
  induction h with
  | refl => exact ⟨_, Reach.start, sim_init n script⟩
  | step t u _ st ih =>
    obtain ⟨b, hb, hsim⟩ := ih
    exact sim_step hs hb hsim st

theorem FRuns.trans {pings : Bool} {a b c : FSt J} (h1 : FRuns pings a b) (h2 : FRuns pings b c) : FRuns pings a c := by
  induction h2 with
  | refl => exact h1
  | step t u _ st ih => exact FRuns.step _ _ _ ih st

/-! ## No wrong result -/

/-- **C130.** Whatever jobs fail in whatever way and whatever workers die at whatever moment, a `getstate` that
returns has returned the statistics of exactly the jobs put since the last `reset`, each exactly once; a
client whose script is finished has got all its results. -/
theorem C130_results (pings : Bool) (n : Nat) (script : List (Op J)) (full : List (List J))
    (hs : expected none script = some full) (s : FSt J) (h : FRuns pings (finit n script) s) :
    ∃ rs, List.Forall₂ List.Perm s.results rs ∧ rs <+: full ∧ (s.script = [] → rs = full) := by
  obtain ⟨b, hb, hsim⟩ := sim_runs hs h
  have := C48_exactly_once n script full hs b hb
  rw [hsim.results, hsim.script] at this
  exact this

/-! ## A lost job blocks -/

theorem lost_step {n : Nat} {script : List (Op J)} {full : List (List J)} (hs : expected none script = some full)
    {pings : Bool} {s t : FSt J} (h : FRuns pings (finit n script) s) (hl : 0 < s.lost) (st : FStep pings s t) :
    0 < t.lost ∧ t.results = s.results ∧ s.lost ≤ t.lost ∧ (t.raised = true → s.raised = true ∨ pings = true) := by
  obtain ⟨b, hb, hsim⟩ := sim_runs hs h
  have hw := sim_busy hs hb hsim (.inr (.inl hl))
  have hno : ∀ k acc, s.phase ≠ .collecting k acc := by
    intro k acc hk; rcases hw with e | e <;> rw [e] at hk <;> cases hk
  have hno' : ∀ k, s.phase ≠ .resetting k := by
    intro k hk; rcases hw with e | e <;> rw [e] at hk <;> cases hk
  cases st with
  | getEnd acc r _ h1 h2 => exact absurd h1 (hno _ _)
  | getWorker k acc l _ h1 => exact absurd h1 (hno _ _)
  | getRaise k acc _ h1 => exact absurd h1 (hno _ _)
  | resetRaise k _ h1 => exact absurd h1 (hno' _)
  | pingRaise r k h0 => exact ⟨hl, rfl, Nat.le_refl _, fun _ => .inr h0⟩
  | fail => exact ⟨by dsimp only; omega, rfl, by dsimp only; omega, fun h => .inl h⟩
  | die => exact ⟨by dsimp only; omega, rfl, by dsimp only; omega, fun h => .inl h⟩
  | loseReport => exact ⟨by dsimp only; omega, rfl, by dsimp only; omega, fun h => .inl h⟩
  | _ => exact ⟨hl, rfl, Nat.le_refl _, fun h => .inl h⟩

/-- **C130 (finding).** Once a job has been lost, by an exception in its processing or by the death of its
worker, no `getstate` ever returns again: the results stay as they are and the client is for ever before or
in the waiting loop of `getstate`. -/
theorem C130_lost_job_blocks {pings : Bool} {n : Nat} {script : List (Op J)} {full : List (List J)}
    (hs : expected none script = some full) {s t : FSt J} (h : FRuns pings (finit n script) s) (hl : 0 < s.lost)
    (hr : FRuns pings s t) : t.results = s.results ∧ Waiting t := by
  have key : FRuns pings (finit n script) t ∧ 0 < t.lost ∧ t.results = s.results := by
    induction hr with
    | refl => exact ⟨h, hl, rfl⟩
    | step t u _ st ih =>
      obtain ⟨a1, a2, a3⟩ := ih
      obtain ⟨b1, b2, -, -⟩ := lost_step hs a1 a2 st
      exact ⟨a1.step _ _ _ st, b1, b2.trans a3⟩
  obtain ⟨b, hb, hsim⟩ := sim_runs hs key.1
  exact ⟨key.2.2, sim_busy hs hb hsim (.inr (.inl key.2.1))⟩

/-- **C130 (finding).** As long as the workers' processes live the client gets no exception either: after a
job failed in a living worker the call hangs. -/
theorem C130_no_exception_while_alive {pings : Bool} {n : Nat} {script : List (Op J)} {s : FSt J}
    (h : FRuns pings (finit n script) s) (ha : ∀ w : Nat, s.alive[w]? ≠ some false) : s.raised = false := by
  have key : s.raised = true → ∃ w : Nat, s.alive[w]? = some false := by
    clear ha
    induction h with
    | refl => intro hr; simp [finit] at hr
    | step t u _ st ih =>
      cases st with
      | resetRaise k _ _ h2 => exact fun _ => ⟨k, h2⟩
      | pingRaise r k _ _ _ _ _ h2 => exact fun _ => ⟨k, h2⟩
      | getRaise k acc _ _ h2 => exact fun _ => ⟨k, h2⟩
      | die w h1 =>
        intro hr
        obtain ⟨v, hv⟩ := ih hr
        refine ⟨v, ?_⟩
        dsimp only
        rw [List.getElem?_set]
        split
        · rename_i e; subst e; rw [h1] at hv; cases hv
        · exact hv
      | _ => exact ih
  cases hr : s.raised with
  | false => rfl
  | true => obtain ⟨w, hw⟩ := key hr; exact absurd hw (ha w)

/-- **C130 (finding).** The LSI dispatcher does not check its workers while it waits: even when the job was
lost by the death of a worker the client never gets an exception. -/
theorem C130_lsi_silent {n : Nat} {script : List (Op J)} {full : List (List J)}
    (hs : expected none script = some full) {s t : FSt J} (h : FRuns false (finit n script) s) (hl : 0 < s.lost)
    (hr : FRuns false s t) : t.raised = s.raised := by
  have key : FRuns false (finit n script) t ∧ 0 < t.lost ∧ (t.raised = true → s.raised = true) ∧
      (s.raised = true → t.raised = true) := by
    induction hr with
    | refl => exact ⟨h, hl, id, id⟩
    | step t u _ st ih =>
      obtain ⟨a1, a2, a3, a4⟩ := ih
      obtain ⟨b1, -, -, b4⟩ := lost_step hs a1 a2 st
      refine ⟨a1.step _ _ _ st, b1, fun hu => ?_, fun hs' => ?_⟩
      · rcases b4 hu with e | e
        · exact a3 e
        · cases e
      · have := a4 hs'
        cases st <;> first | exact this | rfl
  rw [Bool.eq_iff_iff]
  exact ⟨key.2.2.1, key.2.2.2⟩

/-! ## A dead worker -/

/-- after the death of worker `w` the dispatcher does not get past it -/
def Before (w : Nat) (s : FSt J) : Prop :=
  s.alive[w]? = some false ∧ w < s.stats.length ∧ (∀ k acc, s.phase = .collecting k acc → k ≤ w) ∧ (∀ k, s.phase = .resetting k → k ≤ w)

/-- **C130.** Once a worker has died, the `getstate` call in which its state was already collected is the last
to return: from any state between two calls the results stay as they are. -/
theorem C130_no_result_after_death {pings : Bool} (w : Nat) {s t : FSt J} (hw : w < s.stats.length)
    (hd : s.alive[w]? = some false) (hi : s.phase = .idle ∨ s.phase = .putting) (hr : FRuns pings s t) :
    t.results = s.results := by
  have h0 : Before w s := ⟨hd, hw, (by intro k acc hk; rcases hi with e | e <;> rw [e] at hk <;> cases hk),
    (by intro k hk; rcases hi with e | e <;> rw [e] at hk <;> cases hk)⟩
  have key : Before w t ∧ t.results = s.results := by
    clear hi
    induction hr with
    | refl => exact ⟨h0, rfl⟩
    | step t u _ st ih =>
      obtain ⟨⟨a1, a2, a3, a4⟩, a5⟩ := ih
      cases st with
      | getEnd acc r _ h1 h2 => have := a3 _ _ h1; omega
      | getBegin r _ h1 h2 h3 =>
        exact ⟨⟨a1, a2, (by intro k acc hk; cases hk; omega), by intro k hk; cases hk⟩, a5⟩
      | resetBegin r _ h1 h2 =>
        exact ⟨⟨a1, a2, (by intro k acc hk; cases hk), by intro k hk; cases hk; omega⟩, a5⟩
      | getWorker k acc l _ h1 h2 h3 =>
        refine ⟨⟨a1, a2, ?_, by intro k hk; cases hk⟩, a5⟩
        intro k' acc' hk
        cases hk
        have := a3 _ _ h1
        have hne : k ≠ w := by rintro rfl; rw [a1] at h3; cases h3
        omega
      | resetWorker k _ h1 h2 h3 =>
        refine ⟨⟨a1, by simpa using a2, (by intro k acc hk; cases hk), ?_⟩, a5⟩
        intro k' hk
        cases hk
        have := a4 _ h1
        have hne : k ≠ w := by rintro rfl; rw [a1] at h3; cases h3
        omega
      | resetEnd r _ h1 h2 =>
        exact ⟨⟨a1, a2, (by intro k acc hk; cases hk), by intro k hk; cases hk⟩, a5⟩
      | putCount j r _ h1 h2 =>
        exact ⟨⟨a1, a2, (by intro k acc hk; cases hk), by intro k hk; cases hk⟩, a5⟩
      | putQueue j r _ h1 h2 =>
        exact ⟨⟨a1, a2, (by intro k acc hk; cases hk), by intro k hk; cases hk⟩, a5⟩
      | die v h1 =>
        refine ⟨⟨?_, by simpa using a2, a3, a4⟩, a5⟩
        dsimp only
        rw [List.getElem?_set]
        split
        · rename_i e; subst e; rw [h1] at a1; cases a1
        · exact a1
      | fail => exact ⟨⟨a1, by simpa using a2, a3, a4⟩, a5⟩
      | process => exact ⟨⟨a1, by simpa using a2, a3, a4⟩, a5⟩
      | _ => exact ⟨⟨a1, a2, a3, a4⟩, a5⟩
  exact key.2

/-- **C130.** The LDA dispatcher notices a dead worker while it waits for reports, and reports it to the client. -/
theorem C130_lda_reports_death {s : FSt J} (r : List (Op J)) (w : Nat) (hr : s.raised = false) (hi : s.phase = .idle)
    (hs : s.script = .getstate :: r) (hwait : s.done < s.received) (hd : s.alive[w]? = some false) :
    ∃ t, FStep true s t ∧ t.raised = true ∧ t.results = s.results :=
  ⟨_, FStep.pingRaise s r w rfl hr hi hs hwait hd, rfl, rfl⟩

/-! ## Workers that failed do not come back -/

theorem sum_set_lt (l : List Nat) (w a : Nat) (h : l[w]? = some (a + 1)) : (l.set w a).sum + 1 = l.sum := by
  induction l generalizing w with
  | nil => simp at h
  | cons x l ih =>
    cases w with
    | zero => simp at h; subst h; simp; omega
    | succ w =>
      simp only [List.getElem?_cons_succ] at h
      have := ih w h
      simp only [List.set_cons_succ, List.sum_cons]; omega

theorem sum_set_zero_le (l : List Nat) (w : Nat) : (l.set w 0).sum ≤ l.sum := by
  induction l generalizing w with
  | nil => simp
  | cons x l ih =>
    cases w with
    | zero => simp
    | succ w => have := ih w; simp only [List.set_cons_succ, List.sum_cons]; omega

theorem sum_modify_le (l : List Nat) (w : Nat) : (l.modify w (· + 1)).sum ≤ l.sum + 1 := by
  induction l generalizing w with
  | nil => simp
  | cons x l ih =>
    cases w with
    | zero => simp; omega
    | succ w => have := ih w; simp only [List.modify_succ_cons, List.sum_cons]; omega

theorem filter_split {α : Type} (l : List α) (q : α → Prop) [DecidablePred q] :
    (l.filter (fun p => decide (¬ q p))).length + (l.filter (fun p => decide (q p))).length = l.length := by
  induction l with
  | nil => rfl
  | cons x l ih =>
    by_cases hx : q x <;> simp [hx] at ih ⊢ <;> omega

/-- outside `reset` no step starts a request loop, and every lost job ends one -/
theorem loops_step {pings : Bool} {s t : FSt J} (st : FStep pings s t) (hno : ∀ k, s.phase ≠ .resetting k) :
    loops t + t.lost ≤ loops s + s.lost := by
  cases st with
  | resetWorker k _ h1 => exact absurd h1 (hno k)
  | take w a j q h1 h2 h3 h4 =>
    have := sum_set_lt _ _ _ h3
    simp only [loops, List.length_append, List.length_singleton]; omega
  | stop w a h1 h2 h3 =>
    have := sum_set_lt _ _ _ h3
    simp only [loops]; omega
  | process x w j y l h1 h2 h3 =>
    simp only [loops, h2, List.length_append, List.length_cons, List.length_nil]; omega
  | jobdone x w y h1 =>
    have := sum_modify_le s.asking w
    simp only [loops, h1, List.length_append, List.length_cons]
    split <;> omega
  | fail x w j y l tr h1 h2 h3 =>
    simp only [loops, h2, List.length_append, List.length_cons]; omega
  | die w h1 =>
    have e1 := sum_set_zero_le s.asking w
    have e2 := filter_split s.held (fun p => p.1 = w)
    simp only [loops, ne_eq]; omega
  | loseReport x w y h1 h2 =>
    simp only [loops, h2, List.length_append, List.length_cons]; omega
  | _ => exact Nat.le_refl _

/-- **C130.** A worker has one request loop per pass, and a lost job ends it: in the first pass over a corpus
(`reset`, the jobs, `getstate`) the loops left and the jobs lost are together at most the number of workers. -/
theorem C130_loops {pings : Bool} {n : Nat} (jobs : List J) {s : FSt J}
    (h : FRuns pings (finit n (lsiAdd jobs)) s) : loops s + s.lost ≤ n := by
  have key : s.stats.length = n ∧ ((s.script = lsiAdd jobs ∧ s.phase = .idle ∧ loops s + s.lost = 0) ∨
      (s.script = lsiAdd jobs ∧ ∃ k, s.phase = .resetting k ∧ loops s + s.lost ≤ k ∧ k ≤ n) ∨
      (Op.reset ∉ s.script ∧ (∀ k, s.phase ≠ .resetting k) ∧ loops s + s.lost ≤ n)) := by
    induction h with
    | refl => refine ⟨by simp [finit], .inl ⟨rfl, rfl, by simp [finit, loops]⟩⟩
    | step t u _ st ih =>
      obtain ⟨hlen, hcase⟩ := ih
      have hlen' : u.stats.length = n := by
        cases st <;> first | exact hlen | simpa using hlen
      refine ⟨hlen', ?_⟩
      rcases hcase with ⟨c1, c2, c3⟩ | ⟨c1, k, c2, c3, c4⟩ | ⟨c1, c2, c3⟩
      · have hl := loops_step st (by rw [c2]; intro k hk; cases hk)
        cases st with
        | resetBegin r _ h1 h2 => exact .inr (.inl ⟨c1, 0, rfl, by simp only [loops] at hl c3 ⊢; omega, Nat.zero_le _⟩)
        | putCount j r _ h1 h2 => rw [c1] at h2; cases h2
        | putQueue j r _ h1 h2 => rw [c1] at h2; cases h2
        | resetWorker k _ h1 => rw [c2] at h1; cases h1
        | resetRaise k _ h1 => rw [c2] at h1; cases h1
        | resetEnd r _ h1 => rw [c2] at h1; cases h1
        | getBegin r _ h1 h2 => rw [c1] at h2; cases h2
        | getWorker k acc l _ h1 => rw [c2] at h1; cases h1
        | getRaise k acc _ h1 => rw [c2] at h1; cases h1
        | getEnd acc r _ h1 => rw [c2] at h1; cases h1
        | pingRaise r k _ _ h1 h2 => rw [c1] at h2; cases h2
        | _ => exact .inl ⟨c1, c2, by simp only [loops] at hl c3 ⊢; omega⟩
      · by_cases hrw : ∃ k', u.phase = .resetting k' ∧ k' = k + 1 ∧ t.phase ≠ u.phase
        · cases st with
          | resetWorker k' _ h1 h2 h3 =>
            rw [c2] at h1
            cases h1
            have := sum_modify_le t.asking k
            refine .inr (.inl ⟨c1, k + 1, rfl, by simp only [loops] at c3 ⊢; omega, by omega⟩)
          | _ =>
            obtain ⟨k', e1, e2, e3⟩ := hrw
            first
              | exact absurd rfl e3
              | (simp at e1; done)
              | (simp only [Phase.resetting.injEq] at e1; omega)
        · cases st with
          | resetWorker k' _ h1 h2 h3 =>
            rw [c2] at h1
            cases h1
            exact absurd ⟨k + 1, rfl, rfl, by rw [c2]; intro e; cases e⟩ hrw
          | resetBegin r _ h1 h2 => rw [c2] at h1; cases h1
          | putCount j r _ h1 h2 => rw [c2] at h1; cases h1
          | putQueue j r _ h1 h2 => rw [c2] at h1; cases h1
          | getBegin r _ h1 h2 => rw [c2] at h1; cases h1
          | getWorker k acc l _ h1 => rw [c2] at h1; cases h1
          | getRaise k acc _ h1 => rw [c2] at h1; cases h1
          | getEnd acc r _ h1 => rw [c2] at h1; cases h1
          | pingRaise r k _ _ h1 h2 => rw [c2] at h1; cases h1
          | resetRaise k' _ h1 => exact .inr (.inl ⟨c1, k, c2, c3, c4⟩)
          | resetEnd r _ h1 h2 =>
            refine .inr (.inr ⟨?_, (by intro k hk; cases hk), by simp only [loops] at c3 ⊢; omega⟩)
            rw [c1, lsiAdd, List.cons_append] at h2
            simp only [List.cons.injEq, true_and] at h2
            dsimp only
            rw [← h2]
            simp
          | take w a j q h1 h2 h3 h4 =>
            have := sum_set_lt _ _ _ h3
            exact .inr (.inl ⟨c1, k, c2, by simp only [loops, List.length_append, List.length_singleton] at c3 ⊢; omega, c4⟩)
          | stop w a h1 h2 h3 =>
            have := sum_set_lt _ _ _ h3
            exact .inr (.inl ⟨c1, k, c2, by simp only [loops] at c3 ⊢; omega, c4⟩)
          | process x w j y l h1 h2 h3 =>
            exact .inr (.inl ⟨c1, k, c2, by
              simp only [loops, h2, List.length_append, List.length_cons, List.length_nil] at c3 ⊢; omega, c4⟩)
          | jobdone x w y h1 =>
            have := sum_modify_le t.asking w
            exact .inr (.inl ⟨c1, k, c2, by
              simp only [loops, h1, List.length_append, List.length_cons] at c3 ⊢
              split <;> omega, c4⟩)
          | fail x w j y l tr h1 h2 h3 =>
            exact .inr (.inl ⟨c1, k, c2, by
              simp only [loops, h2, List.length_append, List.length_cons] at c3 ⊢; omega, c4⟩)
          | die w h1 =>
            have e1 := sum_set_zero_le t.asking w
            have e2 := filter_split t.held (fun p => p.1 = w)
            exact .inr (.inl ⟨c1, k, c2, by simp only [loops, ne_eq] at c3 ⊢; omega, c4⟩)
          | loseReport x w y h1 h2 =>
            exact .inr (.inl ⟨c1, k, c2, by
              simp only [loops, h2, List.length_append, List.length_cons] at c3 ⊢; omega, c4⟩)
      · have hl := loops_step st c2
        refine .inr (.inr ⟨?_, ?_, by omega⟩)
        · cases st with
          | putQueue j r _ h1 h2 => rw [h2] at c1; exact fun hm => c1 (by simp [hm])
          | resetEnd r _ h1 h2 => rw [h2] at c1; exact fun hm => c1 (by simp [hm])
          | getEnd acc r _ h1 h2 => rw [h2] at c1; exact fun hm => c1 (by simp [hm])
          | _ => exact c1
        · cases st with
          | resetBegin r _ h1 h2 => rw [h2] at c1; simp at c1
          | resetWorker k _ h1 => exact absurd h1 (c2 k)
          | resetRaise k _ h1 => exact absurd h1 (c2 k)
          | putCount => intro k hk; cases hk
          | putQueue => intro k hk; cases hk
          | resetEnd => intro k hk; cases hk
          | getBegin => intro k hk; cases hk
          | getWorker => intro k hk; cases hk
          | getEnd => intro k hk; cases hk
          | _ => exact c2
  rcases key.2 with ⟨-, -, c⟩ | ⟨-, k, -, c, c'⟩ | ⟨-, -, c⟩ <;> omega

/-- **C130 (finding).** When as many jobs were lost in the first pass as there are workers, no worker ever
takes a job again, although all of them may be alive: the queue only grows. -/
theorem C130_starved {pings : Bool} {n : Nat} (hn : 0 < n) (jobs : List J) {s t : FSt J}
    (h : FRuns pings (finit n (lsiAdd jobs)) s) (hl : n ≤ s.lost) (hr : FRuns pings s t) :
    s.queue <+: t.queue ∧ t.held = [] ∧ t.done = s.done := by
  have key : FRuns pings (finit n (lsiAdd jobs)) t ∧ n ≤ t.lost ∧ s.queue <+: t.queue ∧ t.done = s.done := by
    induction hr with
    | refl => exact ⟨h, hl, List.prefix_refl _, rfl⟩
    | step t u _ st ih =>
      obtain ⟨a1, a2, a3, a4⟩ := ih
      have hL := C130_loops jobs a1
      have hs : expected none (lsiAdd jobs) = some [jobs] := by
        have := expected_lsi [jobs]
        simpa using this
      have hlost : 0 < t.lost := by omega
      obtain ⟨-, -, b3, -⟩ := lost_step hs a1 hlost st
      have hw : Waiting t := by
        obtain ⟨b, hb, hsim⟩ := sim_runs hs a1
        exact sim_busy hs hb hsim (.inr (.inl hlost))
      refine ⟨a1.step _ _ _ st, by omega, ?_⟩
      cases st with
      | take w a j q h1 h2 h3 h4 =>
        have := sum_set_lt _ _ _ h3
        simp only [loops] at hL; omega
      | jobdone x w y h1 => simp only [loops, h1, List.length_append, List.length_cons] at hL; omega
      | putQueue j r _ h1 h2 => exact ⟨a3.trans (List.prefix_append _ _), a4⟩
      | resetEnd r _ h1 h2 => rcases hw with e | e <;> rw [e] at h1 <;> cases h1
      | _ => exact ⟨a3, a4⟩
  refine ⟨key.2.2.1, ?_, key.2.2.2⟩
  have hL := C130_loops jobs key.1
  have : loops t = 0 := by omega
  simp only [loops] at this
  exact List.length_eq_zero_iff.mp (by omega)

/-! ## Cases -/

/-- one worker, two jobs; the first one fails: the worker lives, the second job stays in the queue, and the
client waits -/
theorem fault_case (pings : Bool) : ∃ s : FSt Nat, FRuns pings (finit 1 (lsiAdd [7, 8])) s ∧ s.lost = 1 ∧
    s.queue = [8] ∧ s.alive = [true] ∧ s.script = [.getstate] ∧ s.raised = false ∧ s.results = [] := by
  have r0 := FRuns.refl (pings := pings) (finit 1 (lsiAdd [7, 8]))
  have r1 := r0.step _ _ _ (FStep.resetBegin _ _ rfl rfl rfl)
  have r2 := r1.step _ _ _ (FStep.resetWorker _ 0 rfl rfl (by decide) rfl)
  have r3 := r2.step _ _ _ (FStep.resetEnd _ _ rfl rfl rfl)
  have r4 := r3.step _ _ _ (FStep.putCount _ 7 _ rfl rfl rfl)
  have r5 := r4.step _ _ _ (FStep.putQueue _ 7 _ rfl rfl rfl)
  have r6 := r5.step _ _ _ (FStep.take _ 0 0 7 [] (by decide) rfl rfl rfl)
  have r7 := r6.step _ _ _ (FStep.fail _ [] 0 7 [] [] [] rfl rfl rfl)
  have r8 := r7.step _ _ _ (FStep.putCount _ 8 _ rfl rfl rfl)
  have r9 := r8.step _ _ _ (FStep.putQueue _ 8 _ rfl rfl rfl)
  exact ⟨_, r9, rfl, rfl, rfl, rfl, rfl, rfl⟩

/-- two workers; one dies with the only job while the client waits: the LDA dispatcher raises -/
theorem death_case : ∃ s t : FSt Nat, FRuns true (finit 2 (lsiAdd [7])) s ∧ s.lost = 1 ∧ s.alive = [true, false] ∧
    s.script = [.getstate] ∧ s.phase = .idle ∧ s.done < s.received ∧ FStep true s t ∧ t.raised = true := by
  have r0 := FRuns.refl (pings := true) (finit 2 (lsiAdd [7]))
  have r1 := r0.step _ _ _ (FStep.resetBegin _ _ rfl rfl rfl)
  have r2 := r1.step _ _ _ (FStep.resetWorker _ 0 rfl rfl (by decide) rfl)
  have r3 := r2.step _ _ _ (FStep.resetWorker _ 1 rfl rfl (by decide) rfl)
  have r4 := r3.step _ _ _ (FStep.resetEnd _ _ rfl rfl rfl)
  have r5 := r4.step _ _ _ (FStep.putCount _ 7 _ rfl rfl rfl)
  have r6 := r5.step _ _ _ (FStep.putQueue _ 7 _ rfl rfl rfl)
  have r7 := r6.step _ _ _ (FStep.take _ 1 0 7 [] (by decide) rfl rfl rfl)
  have r8 := r7.step _ _ _ (FStep.die _ 1 rfl)
  exact ⟨_, _, r8, rfl, rfl, rfl, rfl, by decide, FStep.pingRaise _ _ 1 rfl rfl rfl rfl (by decide) rfl, rfl⟩

example : expected none (lsiAdd [7, 8]) = some [[7, 8]] := by decide

end Verif.Lda.Dispatch
