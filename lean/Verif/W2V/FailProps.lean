import Verif.W2V.EpochProps
import Verif.W2V.FailModel

/-!
# C153: a failing thread

`train` returns when the consumer has heard from every worker (`unfinished = 0`).
-/

namespace Verif.W2V
variable {J : Type}

/-- `d` workers and `m` end markers were lost -/
structure FInv (w d m : Nat) (s : Epoch J) : Prop where
  len : s.workers.length + d = w
  marks : tot wDone s.workers + s.unfinished = w + tot oNone s.progQ
  ends : tot oNone s.rest + tot oNone s.jobQ + tot wFin s.workers + m = w

theorem fInv_init (w : Nat) (js : List J) : FInv w 0 0 (epochInit w js) := by
  refine ⟨?_, ?_, ?_⟩
  · simp [epochInit]
  · simp [epochInit, tot_replicate, tot_nil, wDone]
  · have e : tot (oNone (β := J)) (js.map some) = 0 := tot_zero _ (by
      intro x hx
      obtain ⟨y, _, rfl⟩ := List.mem_map.1 hx
      rfl)
    simp [epochInit, tot_replicate, tot_nil, tot_append, wFin, e, oNone]

theorem fInv_step {cj cp : Nat} {raw : J → Nat} {w d m : Nat} {s t : Epoch J} (h : FInv w d m s) (st : EStep cj cp raw s t) :
    FInv w d m t := by
  obtain ⟨h1, h2, h3⟩ := h
  cases st with
  | put hr hc =>
    refine ⟨h1, h2, ?_⟩
    rw [hr, tot_cons] at h3
    simp only [tot_append, tot_cons, tot_nil]
    omega
  | get hw hj =>
    rw [hw] at h1 h2 h3
    rw [hj] at h3
    simp only [tot_append, tot_cons, wDone, wFin, oNone, List.length_append, List.length_cons] at h1 h2 h3 ⊢
    refine ⟨?_, ?_, ?_⟩ <;> simp only [tot_append, tot_cons, wDone, wFin, oNone, List.length_append, List.length_cons] <;> omega
  | stop hw hj =>
    rw [hw] at h1 h2 h3
    rw [hj] at h3
    simp only [tot_append, tot_cons, wDone, wFin, oNone, List.length_append, List.length_cons] at h1 h2 h3 ⊢
    refine ⟨?_, ?_, ?_⟩ <;> simp only [tot_append, tot_cons, wDone, wFin, oNone, List.length_append, List.length_cons] <;> omega
  | train n hw =>
    rw [hw] at h1 h2 h3
    simp only [tot_append, tot_cons, wDone, wFin, List.length_append, List.length_cons] at h1 h2 h3 ⊢
    refine ⟨?_, ?_, ?_⟩ <;> simp only [tot_append, tot_cons, wDone, wFin, List.length_append, List.length_cons] <;> omega
  | report hw hc =>
    rw [hw] at h1 h2 h3
    simp only [tot_append, tot_cons, wDone, wFin, List.length_append, List.length_cons] at h1 h2 h3 ⊢
    refine ⟨?_, ?_, ?_⟩ <;> simp only [tot_append, tot_cons, tot_nil, oNone, wDone, wFin, List.length_append, List.length_cons] <;> omega
  | quit hw hc =>
    rw [hw] at h1 h2 h3
    simp only [tot_append, tot_cons, wDone, wFin, List.length_append, List.length_cons] at h1 h2 h3 ⊢
    refine ⟨?_, ?_, ?_⟩ <;> simp only [tot_append, tot_cons, tot_nil, oNone, wDone, wFin, List.length_append, List.length_cons] <;> omega
  | finished hu hp =>
    rw [hp, tot_cons] at h2
    simp only [oNone] at h2
    exact ⟨h1, by dsimp only; omega, h3⟩
  | count hu hp =>
    rw [hp, tot_cons] at h2
    simp only [oNone] at h2
    exact ⟨h1, by dsimp only; omega, h3⟩

theorem fInv_fails {w d m : Nat} {s t : Epoch J} (h : FInv w d m s) (st : Fails s t) :
    ∃ d' m', d ≤ d' ∧ m ≤ m' ∧ d + m < d' + m' ∧ FInv w d' m' t ∧ work t < work s := by
  obtain ⟨h1, h2, h3⟩ := h
  cases st with
  | training hw =>
    rw [hw] at h1 h2 h3
    simp only [tot_append, tot_cons, wDone, wFin, List.length_append, List.length_cons] at h1 h2 h3
    refine ⟨d + 1, m, by omega, by omega, by omega, ⟨?_, ?_, ?_⟩, ?_⟩
    · simp only [List.length_append]; omega
    · simp only [tot_append]; omega
    · simp only [tot_append]; omega
    · simp only [work, hw, tot_append, tot_cons, wWork]; omega
  | batchEnd hw =>
    rw [hw] at h1 h2 h3
    simp only [tot_append, tot_cons, wDone, wFin, List.length_append, List.length_cons] at h1 h2 h3
    refine ⟨d + 1, m, by omega, by omega, by omega, ⟨?_, ?_, ?_⟩, ?_⟩
    · simp only [List.length_append]; omega
    · simp only [tot_append]; omega
    · simp only [tot_append]; omega
    · simp only [work, hw, tot_append, tot_cons, wWork]; omega
  | corpus hm =>
    have hpos : 0 < tot oNone s.rest := by
      obtain ⟨a, b, e⟩ := List.append_of_mem hm
      rw [e, tot_append, tot_cons]
      simp only [oNone]
      omega
    have hl : 0 < s.rest.length := List.length_pos_of_mem hm
    refine ⟨d, m + tot oNone s.rest, by omega, by omega, by omega, ⟨h1, h2, ?_⟩, ?_⟩
    · simp only [tot_nil]; omega
    · simp only [work, List.length_nil]; omega

theorem fInv_steps {cj cp : Nat} {raw : J → Nat} {w d m : Nat} {s t : Epoch J} {n : Nat} (h : FInv w d m s)
    (st : Chunk.Steps (FStep cj cp raw) s n t) : ∃ d' m', d ≤ d' ∧ m ≤ m' ∧ FInv w d' m' t ∧ n + work t ≤ work s := by
  induction st with
  | refl => exact ⟨d, m, by omega, by omega, h, by omega⟩
  | tail _ hst ih =>
    obtain ⟨d', m', h1, h2, h3, h4⟩ := ih
    cases hst with
    | ok st => exact ⟨d', m', h1, h2, fInv_step h3 st, by have := work_decreases st; omega⟩
    | fails st =>
      obtain ⟨d'', m'', i1, i2, _, i3, i4⟩ := fInv_fails h3 st
      exact ⟨d'', m'', by omega, by omega, i3, by omega⟩

theorem wDone_le_wFin (l : List (Wk J)) : tot wDone l ≤ tot wFin l := by
  induction l with
  | nil => exact Nat.le_refl _
  | cons x l ih =>
    rw [tot_cons, tot_cons]
    have : wDone x ≤ wFin x := by cases x <;> simp [wDone, wFin]
    omega

theorem fInv_unfinished {w d m : Nat} {s : Epoch J} (h : FInv w d m s) (hl : 0 < d + m) : 0 < s.unfinished := by
  obtain ⟨h1, h2, h3⟩ := h
  have e1 := wDone_le_wFin s.workers
  have e2 : tot wDone s.workers ≤ s.workers.length := tot_le_length (by intro x; cases x <;> simp [wDone]) _
  omega

/-- **C153** Once a worker thread or the thread that reads the corpus has ended with an exception, training never
returns, whatever the other threads do: the consumer waits for a worker that will not report. -/
theorem C153_word2vec_waits {cj cp : Nat} {raw : J → Nat} {w : Nat} {js : List J} {n k : Nat} {s s' t : Epoch J}
    (before : Chunk.Steps (FStep cj cp raw) (epochInit w js) n s) (fail : Fails s s')
    (after : Chunk.Steps (FStep cj cp raw) s' k t) : 0 < t.unfinished := by
  obtain ⟨d, m, _, _, h3, _⟩ := fInv_steps (fInv_init w js) before
  obtain ⟨d', m', _, _, i3, i4, _⟩ := fInv_fails h3 fail
  obtain ⟨d'', m'', j1, j2, j3, _⟩ := fInv_steps i4 after
  exact fInv_unfinished j3 (by omega)

/-- **C153** And it waits standing still: also with failures there are at most five steps per job and per end marker. -/
theorem C153_word2vec_stops {cj cp : Nat} {raw : J → Nat} {w : Nat} {js : List J} {n : Nat} {t : Epoch J}
    (st : Chunk.Steps (FStep cj cp raw) (epochInit w js) n t) : n ≤ 5 * (js.length + w) := by
  obtain ⟨_, _, _, _, _, h⟩ := fInv_steps (fInv_init w js) st
  have e : work (epochInit w js) = 5 * (js.length + w) := by
    simp [work, epochInit, tot_replicate, wWork]
  omega

/-- **C153** So if training returns, no thread failed, and every job was trained exactly once. -/
theorem C153_word2vec_returned {cj cp : Nat} {raw : J → Nat} {w : Nat} (hw : 0 < w) {js : List J} {n : Nat} {t : Epoch J}
    (st : Chunk.Steps (FStep cj cp raw) (epochInit w js) n t) (hend : t.unfinished = 0) :
    Chunk.Steps (EStep cj cp raw) (epochInit w js) n t ∧ (t.log.map Prod.fst).Perm js := by
  have main : ∀ {n : Nat} {t : Epoch J}, Chunk.Steps (FStep cj cp raw) (epochInit w js) n t →
      (Chunk.Steps (EStep cj cp raw) (epochInit w js) n t ∧ FInv w 0 0 t) ∨ ∃ d m, 0 < d + m ∧ FInv w d m t := by
    intro n t st
    induction st with
    | refl => exact Or.inl ⟨.refl _, fInv_init w js⟩
    | tail _ hst ih =>
      rcases ih with ⟨i1, i2⟩ | ⟨d, m, i1, i2⟩
      · cases hst with
        | ok st => exact Or.inl ⟨.tail i1 st, fInv_step i2 st⟩
        | fails st =>
          obtain ⟨d, m, _, _, h, h', _⟩ := fInv_fails i2 st
          exact Or.inr ⟨d, m, by omega, h'⟩
      · cases hst with
        | ok st => exact Or.inr ⟨d, m, i1, fInv_step i2 st⟩
        | fails st =>
          obtain ⟨d', m', _, _, h, h', _⟩ := fInv_fails i2 st
          exact Or.inr ⟨d', m', by omega, h'⟩
  rcases main st with ⟨h, _⟩ | ⟨d, m, h1, h2⟩
  · exact ⟨h, (C29_exactly_once hw h hend).1⟩
  · have := fInv_unfinished h2 h1
    omega

/-- one worker, one job, an exception while training: one end marker is left in the queue and nothing moves -/
example : ∃ n t, Chunk.Steps (FStep 5 5 (fun _ : Nat => 1)) (epochInit 1 [7]) n t ∧ t.jobQ = [none] ∧ t.workers = [] ∧
    0 < t.unfinished ∧ ¬ ∃ t', FStep 5 5 (fun _ : Nat => 1) t t' := by
  have s1 : EStep 5 5 (fun _ : Nat => 1) (epochInit 1 [7]) ⟨[none], [some 7], [.idle], [], 1, 0, 0, 0, []⟩ := .put (x := some 7) rfl (by decide)
  have s2 : EStep 5 5 (fun _ : Nat => 1) ⟨[none], [some 7], [.idle], [], 1, 0, 0, 0, []⟩ ⟨[none], [], [.busy 7], [], 1, 0, 0, 0, []⟩ :=
    .get (a := []) (b := []) rfl rfl
  have s3 : Fails (J := Nat) ⟨[none], [], [.busy 7], [], 1, 0, 0, 0, []⟩ ⟨[none], [], [], [], 1, 0, 0, 0, []⟩ := .training (a := []) (b := []) rfl
  have s4 : EStep 5 5 (fun _ : Nat => 1) ⟨[none], [], [], [], 1, 0, 0, 0, []⟩ ⟨[], [none], [], [], 1, 0, 0, 0, []⟩ := .put (x := none) rfl (by decide)
  refine ⟨_, _, ((((Chunk.Steps.refl _).tail (.ok s1)).tail (.ok s2)).tail (.fails s3)).tail (.ok s4), rfl, rfl, by decide, ?_⟩
  rintro ⟨t', st⟩
  cases st with
  | ok st => cases st <;> simp_all
  | fails st => cases st <;> simp_all

end Verif.W2V
