/-
Property C47: which chunks LdaMulticore's M-steps use, under every schedule.
-/
import Verif.Lda.MulticoreModel
import Mathlib.Tactic.Common

namespace Verif.Lda.Multicore

variable {D : Type}

/-- All chunks, wherever they are. -/
def everything (s : St D) : List (List D) :=
  s.msteps.flatten ++ s.other ++ s.resultQ ++ s.working ++ s.jobQ ++ s.todo

structure Inv (upd : Nat) (chunks : List (List D)) (s : St D) : Prop where
  perm : (everything s).Perm chunks
  size : s.queueSize = s.jobQ.length + s.working.length + s.resultQ.length
  past : s.phase = .wait ∨ s.phase = .done ∨ (∃ m, s.phase = .proc true m) → s.todo = []
  ended : s.phase = .done → s.queueSize = 0
  small : s.phase = .dispatch ∨ s.phase = .wait ∨ s.phase = .done ∨ (∃ f, s.phase = .proc f false) →
    docs s.other < upd ∨ upd = 0 ∧ s.other = []
  merged : ∀ f, s.phase = .proc f true → s.other ≠ []

theorem docs_append (a b : List (List D)) : docs (a ++ b) = docs a + docs b := by
  simp [docs]

theorem inv_start (upd : Nat) (chunks : List (List D)) : Inv upd chunks (start chunks) := by
  refine ⟨by simp [everything, start], by simp [start], ?_, ?_, ?_, ?_⟩
  · rintro (h | h | ⟨m, h⟩) <;> simp [start] at h
  · intro h; simp [start] at h
  · intro _
    rcases Nat.eq_zero_or_pos upd with h | h
    · exact Or.inr ⟨h, rfl⟩
    · exact Or.inl (by simpa [start, docs] using h)
  · intro f h; simp [start] at h

theorem inv_step (upd : Nat) (chunks : List (List D)) (s t : St D) (h : Inv upd chunks s)
    (st : Step upd s t) : Inv upd chunks t := by
  obtain ⟨hp, hs, hpast, hend, hsmall, hmg⟩ := h
  cases st with
  | put c r h1 h2 =>
    refine ⟨?_, ?_, ?_, ?_, ?_, ?_⟩
    · refine List.Perm.trans ?_ hp
      unfold everything
      dsimp only
      rw [h2]; simp
    · dsimp only; rw [List.length_append, List.length_singleton]; omega
    · rintro (h | h | ⟨m, h⟩) <;> simp at h
    · intro h; simp at h
    · intro _; exact hsmall (Or.inl h1)
    · intro f h; simp at h
  | full h1 h2 =>
    refine ⟨hp, hs, ?_, ?_, ?_, ?_⟩
    · rintro (h | h | ⟨m, h⟩) <;> simp at h
    · intro h; simp at h
    · intro _; exact hsmall (Or.inl h1)
    · intro f h; simp at h
  | dispatched h1 h2 =>
    refine ⟨hp, hs, fun _ => h2, ?_, ?_, ?_⟩
    · intro h; simp at h
    · intro _; exact hsmall (Or.inl h1)
    · intro f h; simp at h
  | waitMore h1 h2 =>
    refine ⟨hp, hs, fun _ => hpast (Or.inl h1), ?_, ?_, ?_⟩
    · intro h; simp at h
    · intro _; exact hsmall (Or.inr (Or.inl h1))
    · intro f h; simp at h
  | finish h1 h2 =>
    exact ⟨hp, hs, fun _ => hpast (Or.inl h1), fun _ => h2, fun _ => hsmall (Or.inr (Or.inl h1)),
      fun f h => by simp at h⟩
  | merge f m c r h1 h2 =>
    refine ⟨?_, ?_, ?_, ?_, ?_, ?_⟩
    · refine List.Perm.trans ?_ hp
      unfold everything
      dsimp only
      rw [h2]; simp
    · dsimp only; rw [h2] at hs; rw [List.length_cons] at hs; omega
    · rintro (h | h | ⟨m', h⟩)
      · simp at h
      · simp at h
      · dsimp only at h
        injection h with e1 e2
        exact hpast (Or.inr (Or.inr ⟨m, by rw [h1, e1]⟩))
    · intro h; simp at h
    · rintro (h | h | h | ⟨f', h⟩) <;> simp at h
    · intro _ _; simp
  | mstep f m h1 h2 =>
    refine ⟨?_, hs, ?_, ?_, ?_, ?_⟩
    · refine List.Perm.trans ?_ hp
      unfold everything
      dsimp only
      simp
    · intro h
      cases f with
      | true => exact hpast (Or.inr (Or.inr ⟨m, h1⟩))
      | false => rcases h with h | h | ⟨m', h⟩ <;> simp at h
    · intro h; cases f <;> simp at h
    · intro _
      rcases Nat.eq_zero_or_pos upd with h | h
      · exact Or.inr ⟨h, rfl⟩
      · exact Or.inl (by simpa [docs] using h)
    · intro f' h; cases f <;> simp at h
  | noMstep f m h1 h2 =>
    refine ⟨hp, hs, ?_, ?_, ?_, ?_⟩
    · intro h
      cases f with
      | true => exact hpast (Or.inr (Or.inr ⟨m, h1⟩))
      | false => rcases h with h | h | ⟨m', h⟩ <;> simp at h
    · intro h; cases f <;> simp at h
    · intro _
      unfold wantsMstep at h2
      rw [Bool.or_eq_false_iff] at h2
      have := of_decide_eq_false h2.2
      left; dsimp only; omega
    · intro f' h; cases f <;> simp at h
  | take c r h1 =>
    refine ⟨?_, ?_, hpast, hend, hsmall, hmg⟩
    · refine List.Perm.trans ?_ hp
      unfold everything
      dsimp only
      rw [h1]
      simp only [List.append_assoc, List.cons_append]
      refine List.Perm.append_left _ (List.Perm.append_left _ (List.Perm.append_left _ ?_))
      exact List.perm_middle.symm
    · dsimp only; rw [h1] at hs; simp only [List.length_cons] at hs ⊢; omega
  | deliver a c b h1 =>
    refine ⟨?_, ?_, hpast, hend, hsmall, hmg⟩
    · refine List.Perm.trans ?_ hp
      unfold everything
      dsimp only
      rw [h1]
      simp only [List.append_assoc, List.cons_append, List.nil_append]
      refine List.Perm.append_left _ (List.Perm.append_left _ (List.Perm.append_left _ ?_))
      exact List.perm_middle.symm
    · dsimp only; rw [h1] at hs
      simp only [List.length_append, List.length_cons, List.length_nil] at hs ⊢; omega

theorem reach_inv (upd : Nat) (chunks : List (List D)) (s : St D) (h : Reach upd chunks s) :
    Inv upd chunks s := by
  induction h with
  | start => exact inv_start upd chunks
  | step s t _ st ih => exact inv_step upd chunks s t ih st

/-- **C47 (both modes)**: at every moment of every schedule, no chunk's statistics have been used
    twice; at the end of a pass every chunk was used by exactly one M-step, except for those (fewer
    than `updateafter` documents) that were merged but not followed by an M-step. -/
theorem C47_at_most_once (upd : Nat) (chunks : List (List D)) (s : St D) (h : Reach upd chunks s) :
    s.msteps.flatten.Subperm chunks ∧
    (s.phase = .done → (s.msteps.flatten ++ s.other).Perm chunks ∧
      (docs s.other < upd ∨ s.other = [])) := by
  have hi := reach_inv upd chunks s h
  constructor
  · refine List.Subperm.trans ?_ hi.perm.subperm
    unfold everything
    simp only [List.append_assoc]
    exact (List.sublist_append_left _ _).subperm
  · intro hd
    have h0 := hi.ended hd
    have hs := hi.size
    have e1 : s.jobQ = [] := List.length_eq_zero_iff.1 (by omega)
    have e2 : s.working = [] := List.length_eq_zero_iff.1 (by omega)
    have e3 : s.resultQ = [] := List.length_eq_zero_iff.1 (by omega)
    have e4 := hi.past (Or.inr (Or.inl hd))
    have hp := hi.perm
    unfold everything at hp
    rw [e1, e2, e3, e4] at hp
    refine ⟨by simpa using hp, ?_⟩
    rcases hi.small (Or.inr (Or.inr (Or.inl hd))) with h | h
    · exact Or.inl h
    · exact Or.inr h.2

theorem docs_perm {a b : List (List D)} (h : a.Perm b) : docs a = docs b :=
  (h.map List.length).sum_nat

theorem docs_flatten_cons (a : List (List D)) (l : List (List (List D))) :
    docs (a :: l).flatten = docs a + docs l.flatten := by
  rw [List.flatten_cons, docs_append]

/-- In batch mode every M-step has all documents. -/
theorem batch_inv (chunks : List (List D)) (s : St D) (h : Reach (docs chunks) chunks s)
    (hc : ∀ c ∈ chunks, c ≠ []) (hne : chunks ≠ []) :
    s.msteps = [] ∨ ∃ g, s.msteps = [g] ∧ g.Perm chunks := by
  have hpos : 0 < docs chunks := by
    cases chunks with
    | nil => exact absurd rfl hne
    | cons c cs =>
      have : 0 < c.length := List.length_pos_iff.2 (hc c List.mem_cons_self)
      simp only [docs, List.map_cons, List.sum_cons]; omega
  have hall : ∀ g : List (List D), g.Subperm chunks → docs g ≥ docs chunks → g.Perm chunks := by
    intro g hg hd
    obtain ⟨g', hp, hsub⟩ := hg
    obtain ⟨r, hr⟩ : ∃ r, chunks.Perm (g' ++ r) := by
      clear hp hd hc hne h hpos
      induction hsub with
      | slnil => exact ⟨[], by simp⟩
      | @cons l₁ l₂ x _ ih =>
        obtain ⟨r, hr⟩ := ih
        exact ⟨x :: r, (hr.cons x).trans List.perm_middle.symm⟩
      | @cons_cons l₁ l₂ x _ ih =>
        obtain ⟨r, hr⟩ := ih
        exact ⟨r, hr.cons x⟩
    have e := docs_perm hr
    rw [docs_append, docs_perm hp] at e
    have hr0 : r = [] := by
      cases r with
      | nil => rfl
      | cons x r =>
        have hx : x ∈ chunks := hr.mem_iff.2 (by simp)
        have : 0 < x.length := List.length_pos_iff.2 (hc x hx)
        simp only [docs, List.map_cons, List.sum_cons] at e hd
        omega
    rw [hr0, List.append_nil] at hr
    exact hp.symm.trans hr.symm
  induction h with
  | start => exact Or.inl rfl
  | step s t hs st ih =>
    have hi := reach_inv _ _ _ hs
    cases st with
    | mstep f m h1 h2 =>
      dsimp only
      right
      -- the documents of everything
      have htot := docs_perm hi.perm
      unfold everything at htot
      simp only [docs_append] at htot
      have hsubo : s.other.Subperm chunks := by
        refine List.Subperm.trans ?_ hi.perm.subperm
        unfold everything
        simp only [List.append_assoc]
        exact (List.sublist_append_of_sublist_right (List.sublist_append_left _ _)).subperm
      rcases ih with ih | ⟨g, ih, hg⟩
      · refine ⟨s.other, by rw [ih]; rfl, ?_⟩
        unfold wantsMstep at h2
        rw [Bool.or_eq_true] at h2
        rcases h2 with h2 | h2
        · simp only [Bool.and_eq_true, decide_eq_true_eq] at h2
          obtain ⟨⟨hf, hm⟩, hq⟩ := h2
          subst hf; subst hm
          have hsz := hi.size
          have e1 : s.jobQ = [] := List.length_eq_zero_iff.1 (by omega)
          have e2 : s.working = [] := List.length_eq_zero_iff.1 (by omega)
          have e3 : s.resultQ = [] := List.length_eq_zero_iff.1 (by omega)
          have e4 := hi.past (Or.inr (Or.inr ⟨true, h1⟩))
          have hp := hi.perm
          unfold everything at hp
          rw [e1, e2, e3, e4, ih] at hp
          simpa using hp
        · exact hall _ hsubo (of_decide_eq_true h2)
      · exfalso
        rw [ih] at htot
        have hgd := docs_perm hg
        simp only [List.flatten_cons, List.flatten_nil, List.append_nil] at htot
        unfold wantsMstep at h2
        rw [Bool.or_eq_true] at h2
        rcases h2 with h2 | h2
        · simp only [Bool.and_eq_true, decide_eq_true_eq] at h2
          obtain ⟨⟨hf, hm⟩, hq⟩ := h2
          subst hm
          have hne' := hi.merged f h1
          cases ho : s.other with
          | nil => exact hne' ho
          | cons x r =>
            have hx : x ∈ chunks := hsubo.subset (by rw [ho]; exact List.mem_cons_self)
            have : 0 < x.length := List.length_pos_iff.2 (hc x hx)
            have e : docs s.other = x.length + docs r := by rw [ho]; simp [docs]
            omega
        · have := of_decide_eq_true h2
          omega
    | put => exact ih
    | full => exact ih
    | dispatched => exact ih
    | waitMore => exact ih
    | finish => exact ih
    | merge => exact ih
    | noMstep => exact ih
    | take => exact ih
    | deliver => exact ih

/-- **C47 (batch)**: with `batch=True` (`updateafter = lencorpus`), whatever the timing of workers and
    queues, a finished pass has made exactly one M-step, and it used the statistics of every chunk
    exactly once. -/
theorem C47_batch (chunks : List (List D)) (s : St D) (hc : ∀ c ∈ chunks, c ≠ [])
    (hne : chunks ≠ []) (h : Reach (docs chunks) chunks s) (hd : s.phase = .done) :
    ∃ g, s.msteps = [g] ∧ g.Perm chunks := by
  rcases batch_inv chunks s h hc hne with h0 | h0
  · exfalso
    obtain ⟨hp, hs⟩ := (C47_at_most_once _ _ _ h).2 hd
    rw [h0] at hp
    simp only [List.flatten_nil, List.nil_append] at hp
    rcases hs with hs | hs
    · have := docs_perm hp; omega
    · rw [hs] at hp; exact hne (List.nil_perm.1 hp)
  · exact h0

/-- A worker's result is still outstanding when the forced collection begins. -/
def Outstanding (s : St D) : Prop := s.phase = .wait ∧ 0 < s.queueSize

/-- Executions from a given state. -/
inductive Runs (upd : Nat) : St D → St D → Prop where
  | refl (s : St D) : Runs upd s s
  | step (s t u : St D) : Runs upd s t → Step upd t u → Runs upd s u

/-- From forced collection on, whatever was merged without an M-step is still outstanding. -/
theorem forced_inv (upd : Nat) (chunks : List (List D)) (s t : St D) (hr : Reach upd chunks s)
    (ho : Outstanding s) (h : Runs upd s t) :
    Reach upd chunks t ∧
    ((t.phase = .wait ∧ (0 < t.queueSize ∨ t.other = [])) ∨ (t.phase = .done ∧ t.other = []) ∨
      (∃ m, t.phase = .proc true m ∧ (m = false → 0 < t.queueSize))) := by
  induction h with
  | refl => exact ⟨hr, Or.inl ⟨ho.1, Or.inl ho.2⟩⟩
  | step t u h st ih =>
    obtain ⟨hr', ih⟩ := ih
    refine ⟨Reach.step _ _ hr' st, ?_⟩
    have contra : t.phase = .dispatch ∨ (∃ m, t.phase = .proc false m) → False := by
      rintro (h1 | ⟨m, h1⟩) <;> rw [h1] at ih <;> simp at ih
    cases st with
    | put c r h1 h2 => exact (contra (Or.inl h1)).elim
    | full h1 h2 => exact (contra (Or.inl h1)).elim
    | dispatched h1 h2 => exact (contra (Or.inl h1)).elim
    | waitMore h1 h2 => exact Or.inr (Or.inr ⟨false, rfl, fun _ => h2⟩)
    | finish h1 h2 =>
      refine Or.inr (Or.inl ⟨rfl, ?_⟩)
      rw [h1] at ih
      simp only [true_and, reduceCtorEq, false_and, exists_false, or_false] at ih
      rcases ih with ih | ih
      · omega
      · exact ih
    | merge f m c r h1 h2 =>
      refine Or.inr (Or.inr ⟨true, ?_, fun h => by cases h⟩)
      cases f with
      | true => rfl
      | false => exact (contra (Or.inr ⟨m, h1⟩)).elim
    | mstep f m h1 h2 =>
      cases f with
      | true => exact Or.inl ⟨rfl, Or.inr rfl⟩
      | false => exact (contra (Or.inr ⟨m, h1⟩)).elim
    | noMstep f m h1 h2 =>
      cases f with
      | true =>
        refine Or.inl ⟨rfl, Or.inl ?_⟩
        dsimp only
        rw [h1] at ih
        simp only [reduceCtorEq, false_and, false_or, Phase.proc.injEq, true_and,
          exists_eq_left'] at ih
        cases m with
        | false => exact ih rfl
        | true =>
          unfold wantsMstep at h2
          rw [Bool.or_eq_false_iff] at h2
          have := h2.1
          simp only [Bool.and_true, Bool.true_and, decide_eq_false_iff_not] at this
          omega
      | false => exact (contra (Or.inr ⟨m, h1⟩)).elim
    | take c r h1 => exact ih
    | deliver a c b h1 => exact ih

/-- **C47 (online, when nothing is lost)**: in any mode, if some result is still outstanding when the
    last chunk has been dispatched and the forced collection begins, every chunk's statistics enter
    exactly one M-step. -/
theorem C47_forced_complete (upd : Nat) (chunks : List (List D)) (s t : St D)
    (hr : Reach upd chunks s) (ho : Outstanding s) (h : Runs upd s t) (hd : t.phase = .done) :
    t.msteps.flatten.Perm chunks := by
  obtain ⟨ht, h3⟩ := forced_inv upd chunks s t hr ho h
  have he : t.other = [] := by
    rcases h3 with h3 | h3 | ⟨m, h3, _⟩
    · rw [hd] at h3; simp at h3
    · exact h3.2
    · rw [hd] at h3; simp at h3
  have hp := ((C47_at_most_once _ _ _ ht).2 hd).1
  rw [he, List.append_nil] at hp
  exact hp

/-- **C47 (online, the loss)**: with online updates a schedule exists in which a finished pass has
    discarded the statistics of a chunk: two workers, chunk size 2, so `updateafter = 4`, a corpus of
    three chunks.  The workers are quick, so the result of the last chunk is collected by the unforced
    `process_result_queue()` after its dispatch; the loop that forces the last M-step never runs. -/
theorem C47_online_loss :
    ∃ s : St Nat, Reach 4 [[1, 2], [3, 4], [5]] s ∧ s.phase = .done ∧
      s.msteps = [[[1, 2], [3, 4]]] ∧ s.other = [[5]] := by
  have r0 := Reach.start (updateafter := 4) (chunks := [[1, 2], [3, 4], [5]])
  have r1 := r0.step _ _ (Step.put _ [1, 2] [[3, 4], [5]] rfl rfl)
  have r2 := r1.step _ _ (Step.noMstep _ false false rfl (by decide))
  have r3 := r2.step _ _ (Step.take _ [1, 2] [] rfl)
  have r4 := r3.step _ _ (Step.deliver _ [] [1, 2] [] rfl)
  have r5 := r4.step _ _ (Step.put _ [3, 4] [[5]] rfl rfl)
  have r6 := r5.step _ _ (Step.take _ [3, 4] [] rfl)
  have r7 := r6.step _ _ (Step.deliver _ [] [3, 4] [] rfl)
  have r8 := r7.step _ _ (Step.merge _ false false [1, 2] [[3, 4]] rfl rfl)
  have r9 := r8.step _ _ (Step.merge _ false true [3, 4] [] rfl rfl)
  have r10 := r9.step _ _ (Step.mstep _ false true rfl (by decide))
  have r11 := r10.step _ _ (Step.put _ [5] [] rfl rfl)
  have r12 := r11.step _ _ (Step.take _ [5] [] rfl)
  have r13 := r12.step _ _ (Step.deliver _ [] [5] [] rfl)
  have r14 := r13.step _ _ (Step.merge _ false false [5] [] rfl rfl)
  have r15 := r14.step _ _ (Step.noMstep _ false true rfl (by decide))
  have r16 := r15.step _ _ (Step.dispatched _ rfl rfl)
  have r17 := r16.step _ _ (Step.finish _ rfl rfl)
  exact ⟨_, r17, rfl, rfl, rfl⟩

/-- The same corpus in batch mode, and a run of `C47_forced_complete`'s kind: hypotheses are met. -/
example : ∃ s : St Nat, Reach (docs [[1, 2], [3]]) [[1, 2], [3]] s ∧ s.phase = .done ∧
    s.msteps = [[[3], [1, 2]]] := by
  have r0 := Reach.start (updateafter := 3) (chunks := [[1, 2], [3]])
  have r1 := r0.step _ _ (Step.put _ [1, 2] [[3]] rfl rfl)
  have r2 := r1.step _ _ (Step.noMstep _ false false rfl (by decide))
  have r3 := r2.step _ _ (Step.take _ [1, 2] [] rfl)
  have r4 := r3.step _ _ (Step.put _ [3] [] rfl rfl)
  have r5 := r4.step _ _ (Step.take _ [3] [] rfl)
  have r6 := r5.step _ _ (Step.deliver _ [] [3] [[1, 2]] rfl)
  have r7 := r6.step _ _ (Step.noMstep _ false false rfl (by decide))
  have r8 := r7.step _ _ (Step.dispatched _ rfl rfl)
  have r9 := r8.step _ _ (Step.waitMore _ rfl (by decide))
  have r10 := r9.step _ _ (Step.merge _ true false [3] [] rfl rfl)
  have r11 := r10.step _ _ (Step.deliver _ [] [1, 2] [] rfl)
  have r12 := r11.step _ _ (Step.merge _ true true [1, 2] [] rfl rfl)
  have r13 := r12.step _ _ (Step.mstep _ true true rfl (by decide))
  have r14 := r13.step _ _ (Step.finish _ rfl rfl)
  exact ⟨_, r14, rfl, rfl⟩

end Verif.Lda.Multicore
