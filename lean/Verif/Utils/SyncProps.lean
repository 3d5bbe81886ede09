import Verif.Utils.SyncModel
import Mathlib.Data.List.Induction
import Mathlib.Tactic.ByContra

/-!
# C134: synchronous methods
-/

namespace Verif.Sync

variable {σ L : Type}

/-! ## Specification -/

/-- a body run to its end without interruption; a step that raises ends it -/
def runBody : Call σ L → σ × L → σ
  | [], p => p.1
  | s :: rest, p => if (s p).2 then runBody rest (s p).1 else (s p).1.1

/-- calls one after the other -/
def serial (l0 : L) : List (Call σ L) → σ → σ
  | [], s => s
  | c :: cs, s => serial l0 cs (runBody c (s, l0))

/-- nothing is left to do -/
def Finished (w : World σ L) : Prop := ∀ i, (w.threads i).queue = [] ∧ (w.threads i).active = none

/-! ## Invariant -/

theorem serial_append (l0 : L) (a b : List (Call σ L)) (s : σ) : serial l0 (a ++ b) s = serial l0 b (serial l0 a s) := by
  induction a generalizing s with
  | nil => rfl
  | cons c a ih => exact ih _

structure Inv (l0 : L) (s0 : σ) (queues : Nat → List (Call σ L)) (w : World σ L) : Prop where
  holder : ∀ i, (w.threads i).active ≠ none ↔ w.holder = some i
  free : w.holder = none → w.state = serial l0 (w.order.map Prod.snd) s0
  held : ∀ i rest l, (w.threads i).active = some (rest, l) →
    runBody rest (w.state, l) = serial l0 (w.order.map Prod.snd) s0
  program : ∀ i, ((w.order.filter fun e => e.1 == i).map Prod.snd) ++ (w.threads i).queue = queues i

theorem inv_start (l0 : L) (s0 : σ) (queues : Nat → List (Call σ L)) : Inv l0 s0 queues (start s0 queues) where
  holder i := by simp [start]
  free _ := rfl
  held i rest l h := by simp [start] at h
  program i := by simp [start]

theorem inv_step (l0 : L) (s0 : σ) (queues : Nat → List (Call σ L)) (w u : World σ L) (i : Nat)
    (h : Inv l0 s0 queues w) (hs : step l0 i w = some u) : Inv l0 s0 queues u := by
  unfold step at hs
  cases ha : (w.threads i).active with
  | none =>
    simp only [ha] at hs
    cases hq : (w.threads i).queue with
    | nil => simp only [hq] at hs; cases hs
    | cons c q =>
      simp only [hq] at hs
      by_cases hh : w.holder = none
      · simp only [hh, if_true] at hs
        cases hs
        refine ⟨?_, ?_, ?_, ?_⟩
        · intro j
          by_cases hj : j = i
          · subst hj; simp [World.set]
          · have := h.holder j
            rw [hh] at this
            simp only [World.set, if_neg hj, Option.some.injEq]
            constructor
            · intro h1; exact absurd (this.1 h1) (by simp)
            · intro h1; exact absurd h1.symm hj
        · intro hn; cases hn
        · intro j rest l hj
          by_cases hji : j = i
          · subst hji
            simp only [World.set, if_true, Option.some.injEq, Prod.mk.injEq] at hj
            obtain ⟨rfl, rfl⟩ := hj
            simp only [List.map_append, List.map_cons, List.map_nil, serial_append, serial]
            rw [← h.free hh]
          · simp only [World.set, if_neg hji] at hj
            have := (h.holder j).1 (by rw [hj]; simp)
            rw [hh] at this
            cases this
        · intro j
          have := h.program j
          by_cases hji : j = i
          · subst hji
            rw [hq] at this
            simp only [World.set, if_true, List.filter_append, List.map_append]
            rw [← this]
            simp
          · simp only [World.set, if_neg hji, List.filter_append, List.map_append]
            rw [← this]
            have : (i == j) = false := by simp; exact fun e => hji e.symm
            simp [this]
      · simp only [hh, if_false] at hs; cases hs
  | some p =>
    obtain ⟨rest, l⟩ := p
    have hhold : w.holder = some i := (h.holder i).1 (by rw [ha]; simp)
    have hother : ∀ j, j ≠ i → (w.threads j).active = none := by
      intro j hj
      by_contra hne
      have := (h.holder j).1 hne
      rw [hhold] at this
      exact hj (Option.some.inj this).symm
    simp only [ha] at hs
    cases rest with
    | nil =>
      simp only at hs
      cases hs
      refine ⟨?_, ?_, ?_, ?_⟩
      · intro j
        by_cases hj : j = i
        · subst hj; simp [World.set]
        · simp [World.set, hj, hother j hj]
      · intro _
        exact h.held i [] l ha
      · intro j rest' l' hj
        by_cases hji : j = i
        · subst hji; simp [World.set] at hj
        · simp [World.set, hji, hother j hji] at hj
      · intro j
        have := h.program j
        by_cases hji : j = i
        · subst hji; simpa [World.set] using this
        · simpa [World.set, hji] using this
    | cons s rest =>
      simp only at hs
      cases hs
      refine ⟨?_, ?_, ?_, ?_⟩
      · intro j
        by_cases hj : j = i
        · subst hj; simp [World.set, hhold]
        · simp only [World.set, if_neg hj]
          exact h.holder j
      · intro hn
        rw [hhold] at hn
        cases hn
      · intro j rest' l' hj
        by_cases hji : j = i
        · subst hji
          simp only [World.set, if_true, Option.some.injEq, Prod.mk.injEq] at hj
          obtain ⟨rfl, rfl⟩ := hj
          have := h.held j (s :: rest) l ha
          rw [runBody] at this
          rw [← this]
          cases (s (w.state, l)).2 <;> rfl
        · simp [World.set, hji, hother j hji] at hj
      · intro j
        have := h.program j
        by_cases hji : j = i
        · subst hji; simpa [World.set] using this
        · simpa [World.set, hji] using this

theorem inv_steps (l0 : L) (s0 : σ) (queues : Nat → List (Call σ L)) (u : World σ L)
    (h : Steps (step l0) (start s0 queues) u) : Inv l0 s0 queues u := by
  generalize hw : start s0 queues = w at h
  induction h with
  | refl => exact hw ▸ inv_start l0 s0 queues
  | tail i _ hs ih => exact inv_step l0 s0 queues _ _ i ih hs

/-! ## Theorems -/

/-- **C134.** At most one thread is inside the synchronous methods of an object. -/
theorem C134_mutual_exclusion (l0 : L) (s0 : σ) (queues : Nat → List (Call σ L)) (u : World σ L)
    (h : Steps (step l0) (start s0 queues) u) (i j : Nat) (hi : (u.threads i).active ≠ none)
    (hj : (u.threads j).active ≠ none) : i = j := by
  have inv := inv_steps l0 s0 queues u h
  have a := (inv.holder i).1 hi
  have b := (inv.holder j).1 hj
  rw [a] at b
  exact Option.some.inj b

/-- **C134.** Whenever no call is under way, the state is what the calls made so far give one after the other, in some
order that respects the order in every thread; also when calls raise. -/
theorem C134_serial (l0 : L) (s0 : σ) (queues : Nat → List (Call σ L)) (u : World σ L)
    (h : Steps (step l0) (start s0 queues) u) (hi : ∀ i, (u.threads i).active = none) :
    ∃ order : List (Nat × Call σ L), u.state = serial l0 (order.map Prod.snd) s0 ∧
      ∀ i, ((order.filter fun e => e.1 == i).map Prod.snd) ++ (u.threads i).queue = queues i := by
  have inv := inv_steps l0 s0 queues u h
  refine ⟨u.order, inv.free ?_, inv.program⟩
  cases hh : u.holder with
  | none => rfl
  | some i => exact absurd (hi i) ((inv.holder i).2 hh)

/-- **C134.** The lock is always given back: as long as a call is under way or waiting, some thread can go on. -/
theorem C134_no_deadlock (l0 : L) (s0 : σ) (queues : Nat → List (Call σ L)) (u : World σ L)
    (h : Steps (step l0) (start s0 queues) u) (hn : ¬ Finished u) : ∃ i v, step l0 i u = some v := by
  have inv := inv_steps l0 s0 queues u h
  cases hh : u.holder with
  | some i =>
    have ha := (inv.holder i).2 hh
    cases hact : (u.threads i).active with
    | none => exact absurd hact ha
    | some p =>
      obtain ⟨rest, l⟩ := p
      refine ⟨i, ?_⟩
      unfold step
      simp only [hact]
      cases rest with
      | nil => exact ⟨_, rfl⟩
      | cons s rest => exact ⟨_, rfl⟩
  | none =>
    have hact : ∀ i, (u.threads i).active = none := by
      intro i
      by_contra hne
      have := (inv.holder i).1 hne
      rw [hh] at this
      cases this
    have : ∃ i, (u.threads i).queue ≠ [] := by
      by_contra hne
      apply hn
      intro i
      refine ⟨?_, hact i⟩
      by_contra hq
      exact hne ⟨i, hq⟩
    obtain ⟨i, hq⟩ := this
    refine ⟨i, ?_⟩
    unfold step
    simp only [hact i]
    cases hq' : (u.threads i).queue with
    | nil => exact absurd hq' hq
    | cons c q => simp only [hh, if_true]; exact ⟨_, rfl⟩

theorem serial_jobdone (l0 n s : Nat) (order : List (Call Nat Nat)) (h : ∀ c ∈ order, c = jobdone)
    (hn : order.length = n) : serial l0 order s = s + n := by
  induction order generalizing s n with
  | nil => subst hn; rfl
  | cons c order ih =>
    have hc := h c (by simp)
    subst hc
    subst hn
    rw [serial, ih order.length _ (fun c hc => h c (by simp [hc])) rfl]
    simp [jobdone, runBody]
    omega

/-- **C134.** The dispatcher counts every finished job, whichever threads the notifications arrive in: two workers that
report `a` and `b` jobs bring the counter to `a + b`. -/
theorem C134_jobs_counted (a b : Nat) (u : World Nat Nat)
    (h : Steps (step 0) (start 0 fun i => if i = 0 then List.replicate a jobdone else if i = 1 then List.replicate b jobdone else []) u)
    (hf : Finished u) : u.state = a + b := by
  obtain ⟨order, he, hp⟩ := C134_serial 0 0 _ u h fun i => (hf i).2
  have hq : ∀ i, ((order.filter fun e => e.1 == i).map Prod.snd) =
      if i = 0 then List.replicate a jobdone else if i = 1 then List.replicate b jobdone else [] := by
    intro i
    have := hp i
    rwa [(hf i).1, List.append_nil] at this
  have hmem : ∀ e ∈ order, e.2 = jobdone ∧ (e.1 = 0 ∨ e.1 = 1) := by
    intro e he
    have h1 : e.2 ∈ (order.filter fun x => x.1 == e.1).map Prod.snd :=
      List.mem_map.2 ⟨e, List.mem_filter.2 ⟨he, by simp⟩, rfl⟩
    rw [hq] at h1
    by_cases h0 : e.1 = 0
    · rw [if_pos h0] at h1; exact ⟨List.eq_of_mem_replicate h1, Or.inl h0⟩
    · rw [if_neg h0] at h1
      by_cases h2 : e.1 = 1
      · rw [if_pos h2] at h1; exact ⟨List.eq_of_mem_replicate h1, Or.inr h2⟩
      · rw [if_neg h2] at h1; cases h1
  have hlen : ∀ l : List (Nat × Call Nat Nat), (∀ e ∈ l, e.1 = 0 ∨ e.1 = 1) →
      l.length = (l.filter fun e => e.1 == 0).length + (l.filter fun e => e.1 == 1).length := by
    intro l
    induction l with
    | nil => intro _; rfl
    | cons e l ih =>
      intro hl
      have := ih fun x hx => hl x (by simp [hx])
      rcases hl e (by simp) with h0 | h0 <;> simp [h0] <;> omega
  have l0 := congrArg List.length (hq 0)
  have l1 := congrArg List.length (hq 1)
  simp at l0 l1
  rw [he, serial_jobdone 0 (a + b)]
  · omega
  · intro c hc
    obtain ⟨e, hm, rfl⟩ := List.mem_map.1 hc
    exact (hmem e hm).1
  · rw [List.length_map, hlen order fun e hm => (hmem e hm).2]
    omega

/-- **C134.** The decorator is needed for it: without the lock two notifications can be counted as one. -/
theorem C134_lost_without_lock : ∃ u : World Nat Nat,
    Steps (stepFree 0) (start 0 fun i => if i = 0 ∨ i = 1 then [jobdone] else []) u ∧ Finished u ∧ u.state = 1 := by
  let f : Option (World Nat Nat) → Nat → Option (World Nat Nat) := fun w i => w.bind (stepFree 0 i)
  have key : ∀ (l : List Nat) (w v : World Nat Nat), l.foldl f (some w) = some v → Steps (stepFree 0) w v := by
    intro l
    induction l using List.reverseRecOn with
    | nil => intro w v h; cases h; exact .refl w
    | append_singleton l i ih =>
      intro w v h
      rw [List.foldl_append] at h
      cases hm : l.foldl f (some w) with
      | none => rw [hm] at h; cases h
      | some m =>
        rw [hm] at h
        exact .tail i (ih w m hm) h
  refine ⟨_, key [0, 1, 0, 1, 0, 1, 0, 1] _ _ rfl, ?_, rfl⟩
  intro i
  by_cases h0 : i = 0
  · subst h0; exact ⟨rfl, rfl⟩
  · by_cases h1 : i = 1
    · subst h1; exact ⟨rfl, rfl⟩
    · simp [World.set, start, h0, h1]

/-! ## Repeated training -/

/-- how many jobs of earlier trainings were reported since the last `initialize` -/
def staleReports : List (Op × Nat) → Nat → Nat
  | [], n => n
  | (.init, _) :: os, _ => staleReports os 0
  | (.finishStale, _) :: os, n => staleReports os (n + 1)
  | (.putjob, _) :: os, n => staleReports os n
  | (.finish, _) :: os, n => staleReports os n

theorem disp_balance (os : List (Op × Nat)) (d d' : Disp) (n : Nat) (hd : d.done + d.pending = d.received + n)
    (h : dispRun os d = some d') : d'.done + d'.pending = d'.received + staleReports os n := by
  induction os generalizing d n with
  | nil => cases h; exact hd
  | cons o os ih =>
    obtain ⟨op, r⟩ := o
    rw [dispRun] at h
    cases op with
    | init =>
      simp only [dispStep] at h
      by_cases hc : r ≤ d.pending
      · simp only [hc, if_true, Option.bind_some] at h
        exact ih _ 0 rfl h
      · simp only [hc, if_false, Option.bind_none] at h; cases h
    | putjob =>
      simp only [dispStep, Option.bind_some] at h
      exact ih _ n (by simp only; omega) h
    | finish =>
      simp only [dispStep] at h
      by_cases hc : 0 < d.pending
      · simp only [hc, if_true, Option.bind_some] at h
        exact ih _ n (by simp only; omega) h
      · simp only [hc, if_false, Option.bind_none] at h; cases h
    | finishStale =>
      simp only [dispStep] at h
      by_cases hc : 0 < d.stale
      · simp only [hc, if_true, Option.bind_some] at h
        exact ih _ (n + 1) (by simp only; omega) h
      · simp only [hc, if_false, Option.bind_none] at h; cases h

/-- **C134.** In any history of trainings, `getstate` returns exactly when no more jobs of the current training are
missing than workers have reported jobs of earlier trainings; so without such reports, when none is missing. -/
theorem C134_getstate (os : List (Op × Nat)) (d : Disp) (h : dispRun os ⟨0, 0, 0, 0⟩ = some d) :
    (getstateReturns d = true ↔ d.pending ≤ staleReports os 0) ∧
    (staleReports os 0 = 0 → (getstateReturns d = true ↔ d.pending = 0)) := by
  have hb := disp_balance os ⟨0, 0, 0, 0⟩ d 0 rfl h
  have e : getstateReturns d = true ↔ d.received ≤ d.done := by simp [getstateReturns]
  constructor
  · rw [e]; omega
  · intro h0; rw [e]; omega

/-- **C134 (finding).** A training that is started while a worker is busy with a job of an aborted one returns its
result with a job missing. -/
theorem C134_stale_job : ∃ os d, dispRun os ⟨0, 0, 0, 0⟩ = some d ∧ getstateReturns d = true ∧ 0 < d.pending :=
  ⟨[(.init, 0), (.putjob, 0), (.init, 1), (.putjob, 0), (.finishStale, 0)], ⟨1, 1, 1, 0⟩, rfl, rfl, by decide⟩

/-- **C134 (finding).** Initialising the object again while a call is under way lets a second thread in. -/
theorem C134_relock : ∃ w u : World Nat Nat,
    Steps (step 0) (start 0 fun i => if i = 0 ∨ i = 1 then [jobdone] else []) w ∧ step 0 1 (reinit 0 w) = some u ∧
    (u.threads 0).active ≠ none ∧ (u.threads 1).active ≠ none :=
  ⟨_, _, .tail 0 (.refl _) rfl, rfl, by simp [World.set, start, reinit], by simp [World.set, start, reinit]⟩

/-! ## Cases -/

/-- two threads, one call each: a schedule to the end -/
example : ∃ u : World Nat Nat, Steps (step 0) (start 0 fun i => if i = 0 then List.replicate 1 jobdone else if i = 1 then List.replicate 1 jobdone else []) u ∧
    u.state = 2 := by
  let f : Option (World Nat Nat) → Nat → Option (World Nat Nat) := fun w i => w.bind (step 0 i)
  have key : ∀ (l : List Nat) (w v : World Nat Nat), l.foldl f (some w) = some v → Steps (step 0) w v := by
    intro l
    induction l using List.reverseRecOn with
    | nil => intro w v h; cases h; exact .refl w
    | append_singleton l i ih =>
      intro w v h
      rw [List.foldl_append] at h
      cases hm : l.foldl f (some w) with
      | none => rw [hm] at h; cases h
      | some m =>
        rw [hm] at h
        exact .tail i (ih w m hm) h
  exact ⟨_, key [0, 0, 0, 0, 1, 1, 1, 1] _ _ rfl, rfl⟩

end Verif.Sync
