/-
Property C48: distributed LDA/LSI process each job exactly once; and C65: distributed LSI forgets the
documents of earlier `add_documents` calls.
-/
import Verif.Lda.DispatcherModel
import Mathlib.Data.List.Forall2
import Mathlib.Algebra.BigOperators.Group.List.Basic
import Mathlib.Tactic.Common

namespace Verif.Lda.Dispatch

variable {J : Type}

/-! ### Specification -/

/-- What the `getstate` calls of a script should return: the jobs put since the last `reset`.  `cur` is
    `none` before the first `reset` and after a `getstate`.  `none` when the script breaks the protocol
    (jobs without `reset`, or a `reset` that throws away jobs). -/
def expected : Option (List J) → List (Op J) → Option (List (List J))
  | _, [] => some []
  | none, .reset :: r => expected (some []) r
  | some [], .reset :: r => expected (some []) r
  | some l, .put j :: r => expected (some (l ++ [j])) r
  | some l, .getstate :: r => (expected none r).map (l :: ·)
  | _, _ => none

/-! ### Invariant -/

def Quiet (s : St J) : Prop := s.queue = [] ∧ s.held = [] ∧ s.pending = 0

def Good (s : St J) (l : List J) : Prop :=
  (s.queue ++ s.held.map Prod.snd ++ s.stats.flatten).Perm l ∧
  l.length = s.queue.length + s.held.length + s.pending + s.done

def PhaseInv (s : St J) : Option (List J) → Prop
  | none => match s.phase with
    | .idle => Quiet s
    | .resetting k => Quiet s ∧ (s.stats.take k).flatten = []
    | _ => False
  | some l => match s.phase with
    | .idle => Good s l ∧ s.received = l.length
    | .putting => Good s l ∧ s.received = l.length + 1
    | .resetting k => l = [] ∧ Quiet s ∧ (s.stats.take k).flatten = []
    | .collecting k acc => Quiet s ∧ (acc ++ (s.stats.drop k).flatten).Perm l

def Inv (full : List (List J)) (s : St J) : Prop :=
  ∃ cur rs tail, List.Forall₂ List.Perm s.results rs ∧ expected cur s.script = some tail ∧
    rs ++ tail = full ∧ PhaseInv s cur

theorem quiet_of_good_nil {s : St J} (h : Good s []) :
    Quiet s := by
  obtain ⟨hp, hl⟩ := h
  have := hp.length_eq
  simp only [List.length_append, List.length_map, List.length_nil] at this hl
  exact ⟨List.length_eq_zero_iff.1 (by omega), List.length_eq_zero_iff.1 (by omega), by omega⟩

theorem flatten_take_succ_set (st : List (List J)) (k : Nat) (h : (st.take k).flatten = []) :
    ((st.set k []).take (k + 1)).flatten = [] := by
  rw [List.flatten_eq_nil_iff] at h ⊢
  intro l hl
  rw [List.mem_iff_getElem?] at hl
  obtain ⟨i, hi⟩ := hl
  rw [List.getElem?_take] at hi
  split at hi
  · rename_i hik
    rw [List.getElem?_set] at hi
    split at hi
    · split at hi
      · exact (Option.some.inj hi).symm
      · cases hi
    · apply h
      rw [List.mem_iff_getElem?]
      exact ⟨i, by rw [List.getElem?_take, if_pos (by omega)]; exact hi⟩
  · cases hi

theorem perm_flatten_set (st : List (List J)) (w : Nat) (l : List J) (j : J)
    (h : st[w]? = some l) : (st.set w (l ++ [j])).flatten.Perm (j :: st.flatten) := by
  induction st generalizing w with
  | nil => simp at h
  | cons a st ih =>
    cases w with
    | zero =>
      simp only [List.getElem?_cons_zero, Option.some.injEq] at h
      subst h
      simp only [List.set_cons_zero, List.flatten_cons, List.append_assoc, List.singleton_append]
      exact List.perm_middle
    | succ w =>
      simp only [List.getElem?_cons_succ] at h
      simp only [List.set_cons_succ, List.flatten_cons]
      exact ((ih w h).append_left a).trans List.perm_middle

theorem inv_step (full : List (List J)) (s t : St J) (h : Inv full s) (st : Step s t) :
    Inv full t := by
  obtain ⟨cur, rs, tail, hf, he, hfull, hph⟩ := h
  cases st with
  | putCount j r h1 h2 =>
    cases cur with
    | none => rw [h2] at he; simp [expected] at he
    | some l =>
      refine ⟨some l, rs, tail, hf, he, hfull, ?_⟩
      unfold PhaseInv at hph ⊢
      rw [h1] at hph
      dsimp only at hph ⊢
      exact ⟨hph.1, by rw [hph.2]⟩
  | putQueue j r h1 h2 =>
    cases cur with
    | none => rw [h2] at he; simp [expected] at he
    | some l =>
      refine ⟨some (l ++ [j]), rs, tail, hf, ?_, hfull, ?_⟩
      · rw [h2] at he
        cases l <;> exact he
      · unfold PhaseInv at hph ⊢
        rw [h1] at hph
        dsimp only at hph ⊢
        obtain ⟨⟨hp, hl⟩, hr⟩ := hph
        refine ⟨⟨?_, ?_⟩, ?_⟩
        · dsimp only
          refine List.Perm.trans ?_ (hp.append_right [j])
          simp only [List.append_assoc]
          refine List.Perm.append_left _ ?_
          refine List.perm_append_comm.trans ?_
          simp
        · simp only [List.length_append, List.length_singleton]; omega
        · rw [hr]; simp
  | resetBegin r h1 h2 =>
    cases cur with
    | none =>
      refine ⟨none, rs, tail, hf, he, hfull, ?_⟩
      unfold PhaseInv at hph ⊢
      rw [h1] at hph
      exact ⟨hph, rfl⟩
    | some l =>
      cases l with
      | cons a l => rw [h2] at he; simp [expected] at he
      | nil =>
        refine ⟨some [], rs, tail, hf, he, hfull, ?_⟩
        unfold PhaseInv at hph ⊢
        rw [h1] at hph
        exact ⟨rfl, quiet_of_good_nil hph.1, rfl⟩
  | resetWorker k h1 h2 =>
    refine ⟨cur, rs, tail, hf, he, hfull, ?_⟩
    unfold PhaseInv at hph ⊢
    rw [h1] at hph
    cases cur with
    | none => exact ⟨hph.1, flatten_take_succ_set _ _ hph.2⟩
    | some l => exact ⟨hph.1, hph.2.1, flatten_take_succ_set _ _ hph.2.2⟩
  | resetEnd r h1 h2 =>
    have key : Quiet s ∧ (s.stats.take s.stats.length).flatten = [] ∧
        expected (some []) r = some tail := by
      unfold PhaseInv at hph
      rw [h1] at hph
      rw [h2] at he
      cases cur with
      | none => exact ⟨hph.1, hph.2, he⟩
      | some l =>
        dsimp only at hph
        obtain ⟨rfl, hq, ht⟩ := hph
        exact ⟨hq, ht, he⟩
    obtain ⟨⟨q1, q2, q3⟩, ht, he'⟩ := key
    refine ⟨some [], rs, tail, hf, he', hfull, ?_⟩
    unfold PhaseInv
    rw [List.take_length] at ht
    refine ⟨⟨?_, ?_⟩, rfl⟩
    · dsimp only; rw [q1, q2, ht]; simp
    · dsimp only; rw [q1, q2, q3]; simp
  | getBegin r h1 h2 h3 =>
    cases cur with
    | none => rw [h2] at he; simp [expected] at he
    | some l =>
      refine ⟨some l, rs, tail, hf, he, hfull, ?_⟩
      unfold PhaseInv at hph ⊢
      rw [h1] at hph
      dsimp only at hph ⊢
      obtain ⟨⟨hp, hl⟩, hr⟩ := hph
      have e1 : s.queue = [] := List.length_eq_zero_iff.1 (by omega)
      have e2 : s.held = [] := List.length_eq_zero_iff.1 (by omega)
      refine ⟨⟨e1, e2, by dsimp only; omega⟩, ?_⟩
      rw [e1, e2] at hp
      simpa using hp
  | getWorker k acc l h1 h2 =>
    refine ⟨cur, rs, tail, hf, he, hfull, ?_⟩
    unfold PhaseInv at hph ⊢
    rw [h1] at hph
    cases cur with
    | none => exact hph.elim
    | some l' =>
      dsimp only at hph ⊢
      refine ⟨hph.1, ?_⟩
      have hk := (List.getElem?_eq_some_iff.1 h2)
      obtain ⟨hk, hkl⟩ := hk
      have := hph.2
      rw [List.drop_eq_getElem_cons hk, hkl, List.flatten_cons, ← List.append_assoc] at this
      exact this
  | getEnd acc r h1 h2 =>
    unfold PhaseInv at hph
    rw [h1] at hph
    cases cur with
    | none => exact hph.elim
    | some l =>
      dsimp only at hph
      rw [h2] at he
      have he' : (expected none r).map (l :: ·) = some tail := by cases l <;> exact he
      rw [Option.map_eq_some_iff] at he'
      obtain ⟨tl, htl, rfl⟩ := he'
      refine ⟨none, rs ++ [l], tl, ?_, htl, by rw [List.append_assoc]; exact hfull, ?_⟩
      · dsimp only
        refine List.rel_append hf (List.Forall₂.cons ?_ List.Forall₂.nil)
        have := hph.2
        rw [List.drop_length] at this
        simpa using this
      · unfold PhaseInv; exact hph.1
  | take w j q h1 h2 =>
    refine ⟨cur, rs, tail, hf, he, hfull, ?_⟩
    have hnq : Quiet s → False := fun hq => by rw [hq.1] at h2; cases h2
    have hg : ∀ l, Good s l → Good { s with queue := q, held := s.held ++ [(w, j)] } l := by
      rintro l ⟨hp, hl⟩
      constructor
      · refine List.Perm.trans ?_ hp
        dsimp only
        rw [h2]
        simp only [List.map_append, List.map_cons, List.map_nil, List.append_assoc, List.cons_append,
          List.nil_append]
        have := List.perm_middle (a := j) (l₁ := q ++ s.held.map Prod.snd) (l₂ := s.stats.flatten)
        rwa [List.append_assoc, List.append_assoc] at this
      · rw [h2] at hl
        simp only [List.length_append, List.length_cons, List.length_nil] at hl ⊢
        omega
    unfold PhaseInv at hph ⊢
    dsimp only
    cases hphase : s.phase <;> rw [hphase] at hph <;> cases cur <;> dsimp only at hph ⊢
    all_goals first
      | exact (hnq hph).elim
      | exact hph.elim
      | exact ⟨hg _ hph.1, hph.2⟩
      | exact (hnq hph.1).elim
      | exact (hnq hph.2.1).elim
  | process a w j b l h1 h2 =>
    refine ⟨cur, rs, tail, hf, he, hfull, ?_⟩
    have hnq : Quiet s → False := fun hq => by have := hq.2.1; rw [h1] at this; simp at this
    have hg : ∀ x, Good s x → Good ({ s with held := a ++ b, stats := s.stats.set w (l ++ [j]),
                                             pending := s.pending + 1 } : St J) x := by
      rintro x ⟨hp, hl⟩
      constructor
      · refine List.Perm.trans ?_ hp
        dsimp only
        rw [h1]
        simp only [List.map_append, List.map_cons, List.append_assoc]
        refine List.Perm.append_left _ (List.Perm.append_left _ ?_)
        refine ((perm_flatten_set _ _ _ _ h2).append_left _).trans ?_
        rw [List.cons_append]
        exact List.perm_middle
      · rw [h1] at hl
        simp only [List.length_append, List.length_cons] at hl ⊢
        omega
    unfold PhaseInv at hph ⊢
    dsimp only
    cases hphase : s.phase <;> rw [hphase] at hph <;> cases cur <;> dsimp only at hph ⊢
    all_goals first
      | exact (hnq hph).elim
      | exact hph.elim
      | exact ⟨hg _ hph.1, hph.2⟩
      | exact (hnq hph.1).elim
      | exact (hnq hph.2.1).elim
  | jobdone p h1 =>
    refine ⟨cur, rs, tail, hf, he, hfull, ?_⟩
    have hnq : Quiet s → False := fun hq => by have := hq.2.2; omega
    have hg : ∀ x, Good s x → Good { s with pending := p, done := s.done + 1 } x := by
      rintro x ⟨hp, hl⟩
      exact ⟨hp, by dsimp only; omega⟩
    unfold PhaseInv at hph ⊢
    dsimp only
    cases hphase : s.phase <;> rw [hphase] at hph <;> cases cur <;> dsimp only at hph ⊢
    all_goals first
      | exact (hnq hph).elim
      | exact hph.elim
      | exact ⟨hg _ hph.1, hph.2⟩
      | exact (hnq hph.1).elim
      | exact (hnq hph.2.1).elim

theorem reach_inv (n : Nat) (script : List (Op J)) (full : List (List J))
    (hs : expected none script = some full) (s : St J) (h : Reach n script s) : Inv full s := by
  induction h with
  | start =>
    exact ⟨none, [], full, List.Forall₂.nil, hs, rfl, by exact ⟨rfl, rfl, rfl⟩⟩
  | step s t _ st ih => exact inv_step full s t ih st

/-- **C48**: for every number of workers and every schedule, each completed `getstate` of a client
    following the protocol has returned the statistics of exactly the jobs put since the last `reset`,
    each exactly once. -/
theorem C48_exactly_once (n : Nat) (script : List (Op J)) (full : List (List J))
    (hs : expected none script = some full) (s : St J) (h : Reach n script s) :
    ∃ rs, List.Forall₂ List.Perm s.results rs ∧ rs <+: full ∧ (s.script = [] → rs = full) := by
  obtain ⟨cur, rs, tail, hf, he, hfull, hph⟩ := reach_inv n script full hs s h
  refine ⟨rs, hf, ⟨tail, hfull⟩, ?_⟩
  intro h0
  rw [h0] at he
  have : tail = [] := by cases cur with
    | none => exact (Option.some.inj he).symm
    | some l => cases l <;> exact (Option.some.inj he).symm
  rw [this, List.append_nil] at hfull
  exact hfull

theorem forall2_last {α : Type} {R : α → α → Prop} {a b : List α} (h : List.Forall₂ R a b) (x : α)
    (hb : b.getLast? = some x) : ∃ y, a.getLast? = some y ∧ R y x := by
  induction h with
  | nil => simp at hb
  | @cons p q a b hpq h ih =>
    cases h with
    | nil =>
      simp only [List.getLast?_singleton, Option.some.injEq] at hb
      subst hb
      exact ⟨p, rfl, hpq⟩
    | @cons p' q' a b hpq' h =>
      rw [List.getLast?_cons_cons] at hb ⊢
      exact ih hb

/-- **C48 (statistics)**: if every job contributes `stat job` and states merge by addition, the merged
    state is the sum over the jobs put, as in a serial run. -/
theorem C48_statistics {M : Type} [AddCommMonoid M] (stat : J → M) (n : Nat) (script : List (Op J))
    (full : List (List J)) (hs : expected none script = some full) (s : St J)
    (h : Reach n script s) (h0 : s.script = []) :
    s.results.map (fun jobs => (jobs.map stat).sum) = full.map fun jobs => (jobs.map stat).sum := by
  obtain ⟨rs, hf, -, he⟩ := C48_exactly_once n script full hs s h
  rw [← he h0]
  clear he
  generalize s.results = res at hf
  induction hf with
  | nil => rfl
  | cons hab _ ih => rw [List.map_cons, List.map_cons, ih, (hab.map stat).sum_eq]

/-! ### Liveness -/

/-- Executions. -/
inductive Runs : St J → St J → Prop where
  | refl (s : St J) : Runs s s
  | step (s t u : St J) : Step s t → Runs t u → Runs s u

theorem Runs.trans {a b c : St J} (h1 : Runs a b) (h2 : Runs b c) : Runs a c := by
  induction h1 with
  | refl => exact h2
  | step s t u st _ ih => exact Runs.step _ _ _ st (ih h2)

structure Side (n : Nat) (s : St J) : Prop where
  len : s.stats.length = n
  held : ∀ p ∈ s.held, p.1 < n
  phase : match s.phase with
    | .idle => True
    | .putting => ∃ j r, s.script = .put j :: r
    | .resetting k => k ≤ n ∧ ∃ r, s.script = .reset :: r
    | .collecting k _ => k ≤ n ∧ ∃ r, s.script = .getstate :: r

theorem side_step (n : Nat) (s t : St J) (h : Side n s) (st : Step s t) : Side n t := by
  obtain ⟨hl, hh, hp⟩ := h
  cases st with
  | putCount j r h1 h2 => exact ⟨hl, hh, j, r, h2⟩
  | putQueue j r h1 h2 => exact ⟨hl, hh, trivial⟩
  | resetBegin r h1 h2 => exact ⟨hl, hh, Nat.zero_le _, r, h2⟩
  | resetWorker k h1 h2 =>
    rw [h1] at hp
    exact ⟨by simpa using hl, hh, by omega, hp.2⟩
  | resetEnd r h1 h2 => exact ⟨hl, hh, trivial⟩
  | getBegin r h1 h2 h3 => exact ⟨hl, hh, Nat.zero_le _, r, h2⟩
  | getWorker k acc l h1 h2 =>
    rw [h1] at hp
    have := (List.getElem?_eq_some_iff.1 h2).1
    exact ⟨hl, hh, by omega, hp.2⟩
  | getEnd acc r h1 h2 => exact ⟨hl, hh, trivial⟩
  | take w j q h1 h2 =>
    refine ⟨hl, ?_, hp⟩
    intro p hp'
    rcases List.mem_append.1 hp' with h | h
    · exact hh p h
    · rw [List.mem_singleton] at h; subst h; exact hl ▸ h1
  | process a w j b l h1 h2 =>
    refine ⟨by simpa using hl, ?_, hp⟩
    intro p hp'
    refine hh p ?_
    rw [h1]
    rcases List.mem_append.1 hp' with h | h
    · exact List.mem_append_left _ h
    · exact List.mem_append_right _ (List.mem_cons_of_mem _ h)
  | jobdone p h1 => exact ⟨hl, hh, hp⟩

theorem reach_side (n : Nat) (script : List (Op J)) (s : St J) (h : Reach n script s) :
    Side n s := by
  induction h with
  | start => exact ⟨List.length_replicate, by intro p hp; simp [init] at hp, trivial⟩
  | step s t _ st ih => exact side_step n s t ih st

theorem reach_runs {n : Nat} {script : List (Op J)} {s t : St J} (h : Reach n script s)
    (r : Runs s t) : Reach n script t := by
  induction r with
  | refl => exact h
  | step s t u st _ ih => exact ih (Reach.step _ _ h st)

/-- Outstanding work can always be finished. -/
theorem drain (n : Nat) (hn : 0 < n) (m : Nat) : ∀ s : St J, Side n s →
    3 * s.queue.length + 2 * s.held.length + s.pending = m →
    ∃ t, Runs s t ∧ Quiet t ∧ t.phase = s.phase ∧ t.script = s.script := by
  induction m using Nat.strongRecOn with
  | _ m ih =>
    intro s hs hm
    cases hq : s.queue with
    | cons j q =>
      have st : Step s _ := Step.take s 0 j q (by rw [hs.len]; exact hn) hq
      obtain ⟨t, hr, ht, hp, hsc⟩ := ih _ (by rw [← hm, hq]; simp; omega) _ (side_step n _ _ hs st) rfl
      exact ⟨t, Runs.step _ _ _ st hr, ht, hp, hsc⟩
    | nil =>
      cases hh : s.held with
      | cons p b =>
        obtain ⟨w, j⟩ := p
        have hw : w < s.stats.length := by
          rw [hs.len]; exact hs.held (w, j) (by rw [hh]; exact List.mem_cons_self)
        have st : Step s _ := Step.process s [] w j b _ (by rw [hh]; rfl) (List.getElem?_eq_getElem hw)
        obtain ⟨t, hr, ht, hp, hsc⟩ := ih _ (by rw [← hm, hh]; simp; omega) _ (side_step n _ _ hs st) rfl
        exact ⟨t, Runs.step _ _ _ st hr, ht, hp, hsc⟩
      | nil =>
        cases hp : s.pending with
        | zero => exact ⟨s, Runs.refl s, ⟨hq, hh, hp⟩, rfl, rfl⟩
        | succ p =>
          have st : Step s _ := Step.jobdone s p hp
          obtain ⟨t, hr, ht, hp', hsc⟩ :=
            ih _ (by rw [← hm, hp]; simp) _ (side_step n _ _ hs st) rfl
          exact ⟨t, Runs.step _ _ _ st hr, ht, hp', hsc⟩

theorem reset_finishes (d : Nat) : ∀ (s : St J) (k : Nat) (r : List (Op J)),
    s.phase = .resetting k → k + d = s.stats.length → s.script = .reset :: r →
    ∃ t, Runs s t ∧ t.phase = .idle ∧ t.script = r := by
  induction d with
  | zero =>
    intro s k r hp hk hs
    exact ⟨_, Runs.step _ _ _ (Step.resetEnd s r (by rw [hp, ← hk]; rfl) hs) (Runs.refl _), rfl, rfl⟩
  | succ d ih =>
    intro s k r hp hk hs
    obtain ⟨t, hr, h1, h2⟩ := ih
      ({ s with stats := s.stats.set k [], phase := .resetting (k + 1) } : St J) (k + 1) r rfl
      (by simp only [List.length_set]; omega) hs
    exact ⟨t, Runs.step _ _ _ (Step.resetWorker s k hp (by omega)) hr, h1, h2⟩

theorem collect_finishes (d : Nat) : ∀ (s : St J) (k : Nat) (acc : List J) (r : List (Op J)),
    s.phase = .collecting k acc → k + d = s.stats.length → s.script = .getstate :: r →
    ∃ t, Runs s t ∧ t.phase = .idle ∧ t.script = r := by
  induction d with
  | zero =>
    intro s k acc r hp hk hs
    exact ⟨_, Runs.step _ _ _ (Step.getEnd s acc r (by rw [hp, ← hk]; rfl) hs) (Runs.refl _), rfl, rfl⟩
  | succ d ih =>
    intro s k acc r hp hk hs
    have hk' : k < s.stats.length := by omega
    obtain ⟨t, hr, h1, h2⟩ := ih
      ({ s with phase := .collecting (k + 1) (acc ++ s.stats[k]) } : St J) (k + 1) _ r rfl
      (by dsimp only; omega) hs
    exact ⟨t, Runs.step _ _ _ (Step.getWorker s k acc _ hp (List.getElem?_eq_getElem hk')) hr, h1, h2⟩

theorem idle_finishes (n : Nat) (hn : 0 < n) (script : List (Op J)) (full : List (List J))
    (hs : expected none script = some full) (ops : List (Op J)) : ∀ s : St J, Reach n script s →
    s.phase = .idle → s.script = ops → ∃ t, Runs s t ∧ t.script = [] ∧ t.phase = .idle := by
  induction ops with
  | nil => intro s _ hp h; exact ⟨s, Runs.refl s, h, hp⟩
  | cons op ops ih =>
    intro s hr hp hsc
    cases op with
    | put j =>
      have st1 := Step.putCount s j ops hp hsc
      have st2 := Step.putQueue ({ s with received := s.received + 1, phase := .putting } : St J)
        j ops rfl hsc
      have r1 : Runs s _ := Runs.step _ _ _ st1 (Runs.step _ _ _ st2 (Runs.refl _))
      obtain ⟨t, hrt, h⟩ := ih _ (reach_runs hr r1) rfl rfl
      exact ⟨t, r1.trans hrt, h⟩
    | reset =>
      have st1 := Step.resetBegin s ops hp hsc
      obtain ⟨u, hu, h1, h2⟩ := reset_finishes s.stats.length
        ({ s with phase := .resetting 0 } : St J) 0 ops rfl (Nat.zero_add _) hsc
      have r1 : Runs s u := Runs.step _ _ _ st1 hu
      obtain ⟨t, hrt, h⟩ := ih u (reach_runs hr r1) h1 h2
      exact ⟨t, r1.trans hrt, h⟩
    | getstate =>
      obtain ⟨u, hu, hq, h1, h2⟩ := drain n hn _ s (reach_side n script s hr) rfl
      have hru := reach_runs hr hu
      obtain ⟨cur, rs, tail, -, he, -, hph⟩ := reach_inv n script full hs u hru
      rw [h2, hsc] at he
      have hnd : ¬ u.done < u.received := by
        cases cur with
        | none => simp [expected] at he
        | some l =>
          unfold PhaseInv at hph
          rw [h1, hp] at hph
          dsimp only at hph
          obtain ⟨⟨-, hl⟩, hrc⟩ := hph
          obtain ⟨e1, e2, e3⟩ := hq
          rw [e1, e2, e3] at hl
          simp only [List.length_nil] at hl
          omega
      have st1 := Step.getBegin u ops (h1.trans hp) (h2.trans hsc) hnd
      obtain ⟨v, hv, h3, h4⟩ := collect_finishes u.stats.length
        ({ u with phase := .collecting 0 [] } : St J) 0 [] ops rfl (Nat.zero_add _) (h2.trans hsc)
      have r1 : Runs s v := hu.trans (Runs.step _ _ _ st1 hv)
      obtain ⟨t, hrt, h⟩ := ih v (reach_runs hr r1) h3 h4
      exact ⟨t, r1.trans hrt, h⟩

/-- **C48 (no deadlock)**: with at least one worker, every execution of a client following the
    protocol can be continued until all its calls have returned: `getstate` never waits for a job that
    cannot be finished. -/
theorem C48_completes (n : Nat) (hn : 0 < n) (script : List (Op J)) (full : List (List J))
    (hs : expected none script = some full) (s : St J) (h : Reach n script s) :
    ∃ t, Runs s t ∧ t.script = [] ∧ List.Forall₂ List.Perm t.results full := by
  have fin : ∃ t, Runs s t ∧ t.script = [] := by
    have hside := reach_side n script s h
    have hph := hside.phase
    have go : ∀ u, Runs s u → u.phase = .idle → ∃ t, Runs s t ∧ t.script = [] := by
      intro u hu hp
      obtain ⟨t, ht, h0, -⟩ := idle_finishes n hn script full hs u.script u (reach_runs h hu) hp rfl
      exact ⟨t, hu.trans ht, h0⟩
    cases hp : s.phase with
    | idle => exact go s (Runs.refl s) hp
    | putting =>
      rw [hp] at hph
      obtain ⟨j, r, hsc⟩ := hph
      exact go _ (Runs.step _ _ _ (Step.putQueue s j r hp hsc) (Runs.refl _)) rfl
    | resetting k =>
      rw [hp] at hph
      obtain ⟨hk, r, hsc⟩ := hph
      obtain ⟨u, hu, h1, -⟩ := reset_finishes (s.stats.length - k) s k r hp
        (by have := hside.len; omega) hsc
      exact go u hu h1
    | collecting k acc =>
      rw [hp] at hph
      obtain ⟨hk, r, hsc⟩ := hph
      obtain ⟨u, hu, h1, -⟩ := collect_finishes (s.stats.length - k) s k acc r hp
        (by have := hside.len; omega) hsc
      exact go u hu h1
  obtain ⟨t, ht, h0⟩ := fin
  obtain ⟨rs, hf, -, he⟩ := C48_exactly_once n script full hs t (reach_runs h ht)
  exact ⟨t, ht, h0, he h0 ▸ hf⟩

/-- A concrete client: two cycles, two workers. -/
example : expected none ([.reset, .put 1, .put 2, .getstate, .reset, .reset, .put 3, .getstate] : List (Op Nat)) =
    some [[1, 2], [3]] := by decide +kernel

/-- The protocol matters: a `reset` while jobs are outstanding is rejected by the specification … -/
example : expected none ([.reset, .put 1, .reset] : List (Op Nat)) = none := by decide +kernel

/-- … because a job can then be counted in the wrong cycle: the result below lacks job 2, which is
    still in the queue when `getstate` returns. -/
theorem C48_protocol_needed : ∃ s : St Nat,
    Reach 1 [.reset, .put 1, .reset, .put 2, .getstate] s ∧ s.script = [] ∧ s.results = [[1]] ∧
      s.queue = [2] := by
  have r0 := Reach.start (n := 1) (script := [.reset, .put 1, .reset, .put 2, .getstate])
  have r1 := r0.step _ _ (Step.resetBegin _ _ rfl rfl)
  have r2 := r1.step _ _ (Step.resetWorker _ 0 rfl (by decide))
  have r3 := r2.step _ _ (Step.resetEnd _ _ rfl rfl)
  have r4 := r3.step _ _ (Step.putCount _ 1 _ rfl rfl)
  have r5 := r4.step _ _ (Step.putQueue _ 1 _ rfl rfl)
  have r6 := r5.step _ _ (Step.resetBegin _ _ rfl rfl)
  have r7 := r6.step _ _ (Step.resetWorker _ 0 rfl (by decide))
  have r8 := r7.step _ _ (Step.resetEnd _ _ rfl rfl)
  have r9 := r8.step _ _ (Step.take _ 0 1 [] (by decide) rfl)
  have r10 := r9.step _ _ (Step.process _ [] 0 1 [] [] rfl rfl)
  have r11 := r10.step _ _ (Step.putCount _ 2 _ rfl rfl)
  have r12 := r11.step _ _ (Step.putQueue _ 2 _ rfl rfl)
  have r13 := r12.step _ _ (Step.jobdone _ 0 rfl)
  have r14 := r13.step _ _ (Step.getBegin _ _ rfl rfl (by decide))
  have r15 := r14.step _ _ (Step.getWorker _ 0 [] [1] rfl rfl)
  have r16 := r15.step _ _ (Step.getEnd _ [1] _ rfl rfl)
  exact ⟨_, r16, rfl, rfl, rfl⟩

/-! ### C65 -/

theorem expected_puts (l jobs : List J) (r : List (Op J)) :
    expected (some l) (jobs.map Op.put ++ r) = expected (some (l ++ jobs)) r := by
  induction jobs generalizing l with
  | nil => simp
  | cons j jobs ih =>
    rw [List.map_cons, List.cons_append, List.append_cons l j jobs, ← ih]
    cases l <;> rfl

theorem expected_get (l : List J) (r : List (Op J)) :
    expected (some l) (.getstate :: r) = (expected none r).map (l :: ·) := by
  cases l <;> rfl

theorem expected_lsi (calls : List (List J)) :
    expected none (calls.flatMap lsiAdd) = some calls := by
  induction calls with
  | nil => rfl
  | cons c calls ih =>
    rw [List.flatMap_cons]
    unfold lsiAdd
    rw [List.cons_append, List.cons_append, List.append_assoc]
    change expected (some []) _ = _
    rw [expected_puts, List.nil_append, List.singleton_append, expected_get]
    rw [show (calls.flatMap fun jobs : List J => Op.reset :: jobs.map Op.put ++ [Op.getstate]) =
      calls.flatMap lsiAdd from rfl, ih]
    rfl

/-- **C65**: after distributed one-pass `add_documents` calls, the projection is built from the
    documents of the last call only, under every schedule; in serial mode it covers all calls. -/
theorem C65_distributed_lsi_forgets (n : Nat) (calls : List (List J)) (last : List J) (s : St J)
    (h : Reach n ((calls ++ [last]).flatMap lsiAdd) s) (h0 : s.script = []) :
    (∃ proj, s.results.getLast? = some proj ∧ proj.Perm last) ∧
    lsiSerial (calls ++ [last]) = calls.flatten ++ last := by
  constructor
  · obtain ⟨rs, hf, -, he⟩ := C48_exactly_once n _ _ (expected_lsi _) s h
    have := he h0
    subst this
    exact forall2_last hf last (by simp)
  · unfold lsiSerial
    have : ∀ (cs : List (List J)) (acc : List J),
        cs.foldl (fun proj jobs => proj ++ jobs) acc = acc ++ cs.flatten := by
      intro cs
      induction cs with
      | nil => simp
      | cons c cs ih => intro acc; rw [List.foldl_cons, ih]; simp
    rw [this]; simp

end Verif.Lda.Dispatch
