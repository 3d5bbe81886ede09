import Verif.Lda.MulticoreProps

/-!
# C153: failing worker processes of `LdaMulticore`

`worker_e_step` is the initializer of the processes of a pool (ldamulticore.py:280). If it raises, the process ends, the
pool starts another one, and the job it had taken is gone.
-/

namespace Verif.Lda.Multicore
variable {D : Type}

/-- models ldamulticore.py:335-343: the worker that holds the chunk `c` ends before it has put its statistics -/
inductive Dies : St D → St D → Prop where
  | dies (s : St D) (a : List (List D)) (c : List D) (b : List (List D)) : s.working = a ++ c :: b →
      Dies s { s with working := a ++ b }

/-- what can happen in a pass in which workers may die, from one state to another -/
inductive RunsF (upd : Nat) : St D → St D → Prop where
  | refl (s : St D) : RunsF upd s s
  | step (s t u : St D) : RunsF upd s t → Step upd t u → RunsF upd s u
  | dies (s t u : St D) : RunsF upd s t → Dies t u → RunsF upd s u

/-- `k` chunks are lost -/
structure LInv (k : Nat) (s : St D) : Prop where
  size : s.queueSize = s.jobQ.length + s.working.length + s.resultQ.length + k
  ended : s.phase = .done → s.queueSize = 0

theorem lInv_step {upd k : Nat} {s t : St D} (h : LInv k s) (st : Step upd s t) : LInv k t := by
  obtain ⟨h1, h2⟩ := h
  cases st with
  | put c r p q => exact ⟨by simp only [List.length_append, List.length_singleton]; omega, by simp⟩
  | full p q => exact ⟨h1, by simp⟩
  | dispatched p q => exact ⟨h1, by simp⟩
  | waitMore p q => exact ⟨h1, by simp⟩
  | finish p q => exact ⟨h1, fun _ => q⟩
  | merge f m c r p q =>
    refine ⟨?_, by simp⟩
    rw [q, List.length_cons] at h1
    simp only
    omega
  | mstep f m p q => exact ⟨h1, by cases f <;> simp⟩
  | noMstep f m p q => exact ⟨h1, by cases f <;> simp⟩
  | take c r q =>
    refine ⟨?_, h2⟩
    rw [q, List.length_cons] at h1
    simp only [List.length_cons]
    omega
  | deliver a c b q =>
    refine ⟨?_, h2⟩
    rw [q] at h1
    simp only [List.length_append, List.length_cons, List.length_nil] at h1 ⊢
    omega

theorem lInv_dies {k : Nat} {s t : St D} (h : LInv k s) (hd : s.phase ≠ .done) (st : Dies s t) : LInv (k + 1) t := by
  obtain ⟨h1, h2⟩ := h
  cases st with
  | dies a c b q =>
    refine ⟨?_, fun e => absurd e hd⟩
    rw [q] at h1
    simp only [List.length_append, List.length_cons] at h1 ⊢
    omega

theorem lInv_runs {upd k : Nat} {s t : St D} (h : LInv k s) (r : RunsF upd s t) : ∃ k', k ≤ k' ∧ LInv k' t := by
  induction r with
  | refl => exact ⟨k, Nat.le_refl _, h⟩
  | step t u _ st ih =>
    obtain ⟨k', h1, h2⟩ := ih
    exact ⟨k', h1, lInv_step h2 st⟩
  | dies t u _ st ih =>
    obtain ⟨k', h1, h2⟩ := ih
    refine ⟨k' + 1, by omega, lInv_dies h2 (fun e => ?_) st⟩
    have h0 := h2.ended e
    have h3 := h2.size
    cases st with
    | dies a c b q =>
      rw [q, List.length_append, List.length_cons] at h3
      omega

/-- **C153** Once a worker process of `LdaMulticore` has died with a chunk, the pass never ends, whatever the others do. -/
theorem C153_multicore_waits (upd : Nat) (chunks : List (List D)) (s s' t : St D) (before : RunsF upd (start chunks) s)
    (dies : Dies s s') (after : RunsF upd s' t) : t.phase ≠ .done := by
  obtain ⟨k, _, h⟩ := lInv_runs (k := 0) ⟨rfl, by simp [start]⟩ before
  have hd : s.phase ≠ .done := by
    intro e
    have h0 := h.ended e
    have h3 := h.size
    cases dies with
    | dies a c b q =>
      rw [q, List.length_append, List.length_cons] at h3
      omega
  obtain ⟨k', h2, h2'⟩ := lInv_runs (lInv_dies h hd dies) after
  intro e
  have := h2'.ended e
  have := h2'.size
  omega

theorem Runs.trans {upd : Nat} {s t u : St D} (h : Runs upd s t) (h' : Runs upd t u) : Runs upd s u := by
  induction h' with
  | refl => exact h
  | step t' u' _ st ih => exact .step _ _ _ ih st

/-- how far a pass is from its end -/
def togo (s : St D) : Nat :=
  10 * s.todo.length + 5 * s.jobQ.length + 4 * s.working.length + 3 * s.resultQ.length +
    match s.phase with
    | .done => 0
    | .wait => 1
    | .dispatch => 2
    | .proc _ _ => 3

theorem gets_closer (upd : Nat) (chunks : List (List D)) (s : St D) (h : Inv upd chunks s) (hd : s.phase ≠ .done) :
    ∃ t, Runs upd s t ∧ togo t < togo s := by
  have one : ∀ t, Step upd s t → Runs upd s t := fun t st => .step _ _ _ (.refl _) st
  cases hp : s.phase with
  | done => exact absurd hp hd
  | dispatch =>
    cases ht : s.todo with
    | nil =>
      refine ⟨_, one _ (.dispatched s hp ht), ?_⟩
      simp [togo, hp]
    | cons c r =>
      refine ⟨_, one _ (.put s c r hp ht), ?_⟩
      simp [togo, hp, ht]
      omega
  | proc f m =>
    cases hw : wantsMstep upd f m s with
    | true =>
      refine ⟨_, one _ (.mstep s f m hp hw), ?_⟩
      cases f <;> simp [togo, hp]
    | false =>
      refine ⟨_, one _ (.noMstep s f m hp hw), ?_⟩
      cases f <;> simp [togo, hp]
  | wait =>
    cases hj : s.jobQ with
    | cons c r =>
      refine ⟨_, one _ (.take s c r hj), ?_⟩
      simp [togo, hp, hj]
      omega
    | nil =>
      cases hk : s.working with
      | cons c r =>
        refine ⟨_, one _ (.deliver s [] c r (by simpa using hk)), ?_⟩
        simp [togo, hp, hk]
        omega
      | nil =>
        cases hr : s.resultQ with
        | nil =>
          have h0 : s.queueSize = 0 := by rw [h.size, hj, hk, hr]; rfl
          refine ⟨_, one _ (.finish s hp h0), ?_⟩
          simp [togo, hp]
        | cons c r =>
          have h0 : 0 < s.queueSize := by rw [h.size, hj, hk, hr]; simp
          refine ⟨_, .step _ _ _ (one _ (.waitMore s hp h0)) (.merge _ true false c r rfl hr), ?_⟩
          simp [togo, hp, hr, hj, hk]
          omega

/-- **C153** As long as no worker dies, a pass cannot get stuck: from every state it can reach, under every schedule so
far, it can still end. -/
theorem C153_multicore_can_end (upd : Nat) (chunks : List (List D)) (s : St D) (h : Reach upd chunks s) :
    ∃ t, Runs upd s t ∧ t.phase = .done := by
  have key : ∀ n (s : St D), togo s ≤ n → Reach upd chunks s → ∃ t, Runs upd s t ∧ t.phase = .done := by
    intro n
    induction n with
    | zero =>
      intro s hs hr
      by_cases hd : s.phase = .done
      · exact ⟨s, .refl s, hd⟩
      · obtain ⟨t, _, ht⟩ := gets_closer upd chunks s (reach_inv upd chunks s hr) hd
        omega
    | succ n ih =>
      intro s hs hr
      by_cases hd : s.phase = .done
      · exact ⟨s, .refl s, hd⟩
      · obtain ⟨t, h1, ht⟩ := gets_closer upd chunks s (reach_inv upd chunks s hr) hd
        have hr' : Reach upd chunks t := by
          clear ht ih
          induction h1 with
          | refl => exact hr
          | step t' u' _ st ih' => exact .step _ _ ih' st
        obtain ⟨u, h2, h3⟩ := ih t (by omega) hr'
        exact ⟨u, h1.trans h2, h3⟩
  exact key _ s (Nat.le_refl _) h

/-- one chunk, whose worker dies -/
example : ∃ s s' : St Nat, RunsF 4 (start [[1, 2]]) s ∧ Dies s s' := by
  have r1 : RunsF 4 (start [[1, 2]]) _ := .step _ _ _ (.refl _) (Step.put (D := Nat) _ [1, 2] [] rfl rfl)
  have r2 := RunsF.step _ _ _ r1 (Step.take _ [1, 2] [] rfl)
  exact ⟨_, _, r2, .dies _ [] [1, 2] [] rfl⟩

end Verif.Lda.Multicore
