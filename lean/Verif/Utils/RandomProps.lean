import Verif.Utils.RandomModel
import Verif.W2V.EpochProps
import Verif.W2V.NegProps
import Verif.W2V.SubsampleModel

/-!
# C136: random generators
-/

namespace Verif.Random

variable {G R S : Type}

/-! ## Specification -/

/-- an object that is alone in the world: constructed, then its methods called one after the other -/
def alone (start : S × G) (calls : List (S → G → S × G)) : S × G := calls.foldl (fun p f => f p.1 p.2) start

/-- the calls of methods of object `a` -/
def callsOf (a : Nat) (ops : List (Op G S)) : List (S → G → S × G) :=
  ops.filterMap fun
    | .call i f => if i = a then some f else none
    | _ => none

/-- the object is not replaced, and its generator is not given to another object -/
def Undisturbed (a : Nat) : Op G S → Prop
  | .create i seed _ => i ≠ a ∧ seed ≠ .state a
  | .reload _ j => j ≠ a
  | _ => True

/-- no objects yet -/
def nobody (gens : Ref → G) : World G S := ⟨⟨gens, 0⟩, fun _ => none⟩

/-! ## Lemmas -/

/-- every generator in use has been made -/
def Made (w : World G S) : Prop := ∀ j s n, w.objs j = some (s, .own n) → n < w.gens.made

theorem made_step (seeded : Int → G) (w : World G S) (op : Op G S) (h : Made w) : Made (stepOp seeded w op) := by
  cases op with
  | create i seed init =>
    rw [stepOp]
    cases seed with
    | none =>
      intro j s n hj
      simp only [getRandomState, World.put] at hj
      by_cases hi : j = i
      · simp [hi] at hj
      · rw [if_neg hi] at hj; exact h j s n hj
    | module =>
      intro j s n hj
      simp only [getRandomState, World.put] at hj
      by_cases hi : j = i
      · simp [hi] at hj
      · rw [if_neg hi] at hj; exact h j s n hj
    | int z =>
      intro j s n hj
      simp only [getRandomState, World.put, Gens.new, Gens.set] at hj ⊢
      by_cases hi : j = i
      · simp [hi] at hj; omega
      · rw [if_neg hi] at hj
        have := h j s n hj
        omega
    | state k =>
      cases hk : w.objs k with
      | none => simp only [getRandomState, hk, Option.map_none]; exact h
      | some p =>
        intro j s n hj
        simp only [getRandomState, hk, Option.map_some, World.put, Gens.set] at hj ⊢
        by_cases hi : j = i
        · rw [if_pos hi] at hj
          simp only [Option.some.injEq, Prod.mk.injEq] at hj
          exact h k p.1 n (by rw [hk, ← hj.2])
        · rw [if_neg hi] at hj; exact h j s n hj
    | other => exact h
  | call i f =>
    rw [stepOp]
    cases hi : w.objs i with
    | none => exact h
    | some p =>
      intro j s n hj
      simp only [World.put, Gens.set] at hj ⊢
      by_cases hji : j = i
      · rw [if_pos hji] at hj
        simp only [Option.some.injEq, Prod.mk.injEq] at hj
        exact h i p.1 n (by rw [hi, ← hj.2])
      · rw [if_neg hji] at hj; exact h j s n hj
  | reload i k =>
    rw [stepOp]
    cases hi : w.objs i with
    | none => exact h
    | some p =>
      intro j s n hj
      simp only [World.put, Gens.new] at hj ⊢
      by_cases hji : j = k
      · rw [if_pos hji] at hj
        simp only [Option.some.injEq, Prod.mk.injEq, Ref.own.injEq] at hj
        omega
      · rw [if_neg hji] at hj
        have := h j s n hj
        omega
  | global f => exact h

theorem made_run (seeded : Int → G) (ops : List (Op G S)) (w : World G S) (h : Made w) : Made (run seeded ops w) := by
  induction ops generalizing w with
  | nil => exact h
  | cons op ops ih => exact ih _ (made_step seeded w op h)

/-- object `a` is there, in state `s`, with a generator of its own, in state `g` -/
structure Own (w : World G S) (a k : Nat) (s : S) (g : G) : Prop where
  obj : w.objs a = some (s, .own k)
  gen : w.gens.get (.own k) = g
  only : ∀ j s', j ≠ a → w.objs j ≠ some (s', .own k)
  made : k < w.gens.made

theorem own_step (seeded : Int → G) (w : World G S) (op : Op G S) (a k : Nat) (s : S) (g : G) (h : Own w a k s g)
    (hu : Undisturbed a op) :
    Own (stepOp seeded w op) a k (alone (s, g) (callsOf a [op])).1 (alone (s, g) (callsOf a [op])).2 := by
  have hm := h.made
  cases op with
  | create i seed init =>
    obtain ⟨hi, hs⟩ := hu
    have hal : alone (s, g) (callsOf a [.create i seed init]) = (s, g) := rfl
    rw [hal, stepOp]
    cases seed with
    | none =>
      refine ⟨?_, ?_, ?_, hm⟩
      · simp only [getRandomState, World.put, if_neg (Ne.symm hi)]; exact h.obj
      · simp only [getRandomState, Gens.set, if_neg (show Ref.own k ≠ Ref.global by simp)]; exact h.gen
      · intro j s' hj e
        simp only [getRandomState, World.put] at e
        by_cases hji : j = i
        · simp [hji] at e
        · rw [if_neg hji] at e; exact h.only j s' hj e
    | module =>
      refine ⟨?_, ?_, ?_, hm⟩
      · simp only [getRandomState, World.put, if_neg (Ne.symm hi)]; exact h.obj
      · simp only [getRandomState, Gens.set, if_neg (show Ref.own k ≠ Ref.global by simp)]; exact h.gen
      · intro j s' hj e
        simp only [getRandomState, World.put] at e
        by_cases hji : j = i
        · simp [hji] at e
        · rw [if_neg hji] at e; exact h.only j s' hj e
    | int z =>
      have hne : Ref.own k ≠ Ref.own w.gens.made := by simp; omega
      refine ⟨?_, ?_, ?_, ?_⟩
      · simp only [getRandomState, World.put, Gens.new, if_neg (Ne.symm hi)]; exact h.obj
      · simp only [getRandomState, Gens.set, Gens.new, if_neg hne]; exact h.gen
      · intro j s' hj e
        simp only [getRandomState, World.put, Gens.new] at e
        by_cases hji : j = i
        · simp [hji] at e; omega
        · rw [if_neg hji] at e; exact h.only j s' hj e
      · simp only [getRandomState, Gens.set, Gens.new]; omega
    | state q =>
      have hqa : q ≠ a := fun e => hs (by rw [e])
      cases hq : w.objs q with
      | none => simp only [getRandomState, hq, Option.map_none]; exact h
      | some p =>
        have hne : Ref.own k ≠ p.2 := fun e => h.only q p.1 hqa (by rw [hq, e])
        refine ⟨?_, ?_, ?_, ?_⟩
        · simp only [getRandomState, hq, Option.map_some, World.put, if_neg (Ne.symm hi)]; exact h.obj
        · simp only [getRandomState, hq, Option.map_some, Gens.set, if_neg hne]; exact h.gen
        · intro j s' hj e
          simp only [getRandomState, hq, Option.map_some, World.put] at e
          by_cases hji : j = i
          · rw [if_pos hji] at e
            simp only [Option.some.injEq, Prod.mk.injEq] at e
            exact hne e.2.symm
          · rw [if_neg hji] at e; exact h.only j s' hj e
        · simp only [getRandomState, hq, Option.map_some, Gens.set]; exact hm
    | other => exact h
  | call i f =>
    rw [stepOp]
    by_cases hia : i = a
    · subst hia
      have hal : alone (s, g) (callsOf i [.call i f]) = f s g := by simp [callsOf, alone]
      rw [hal, h.obj]
      refine ⟨?_, ?_, ?_, hm⟩
      · simp [World.put, h.gen]
      · simp [Gens.set, h.gen]
      · intro j s' hj e
        simp only [World.put, if_neg hj] at e
        exact h.only j s' hj e
    · have hal : alone (s, g) (callsOf a [.call i f]) = (s, g) := by simp [callsOf, alone, hia]
      rw [hal]
      cases hi : w.objs i with
      | none => exact h
      | some p =>
        have hne : Ref.own k ≠ p.2 := fun e => h.only i p.1 hia (by rw [hi, e])
        refine ⟨?_, ?_, ?_, hm⟩
        · simp only [World.put, if_neg (Ne.symm hia)]; exact h.obj
        · simp only [Gens.set, if_neg hne]; exact h.gen
        · intro j s' hj e
          simp only [World.put] at e
          by_cases hji : j = i
          · rw [if_pos hji] at e
            simp only [Option.some.injEq, Prod.mk.injEq] at e
            exact hne e.2.symm
          · rw [if_neg hji] at e; exact h.only j s' hj e
  | reload i q =>
    have hqa : q ≠ a := hu
    have hal : alone (s, g) (callsOf a [.reload i q]) = (s, g) := rfl
    rw [hal, stepOp]
    cases hi : w.objs i with
    | none => exact h
    | some p =>
      have hne : Ref.own k ≠ Ref.own w.gens.made := by simp; omega
      refine ⟨?_, ?_, ?_, ?_⟩
      · simp only [World.put, if_neg (Ne.symm hqa)]; exact h.obj
      · simp only [Gens.new, if_neg hne]; exact h.gen
      · intro j s' hj e
        simp only [World.put, Gens.new] at e
        by_cases hjq : j = q
        · rw [if_pos hjq] at e
          simp only [Option.some.injEq, Prod.mk.injEq] at e
          exact hne e.2.symm
        · rw [if_neg hjq] at e; exact h.only j s' hj e
      · simp only [Gens.new]; omega
  | global f =>
    have hal : alone (s, g) (callsOf a [.global f]) = (s, g) := rfl
    rw [hal, stepOp]
    refine ⟨h.obj, ?_, h.only, hm⟩
    simp only [Gens.set, if_neg (show Ref.own k ≠ Ref.global by simp)]
    exact h.gen

theorem own_run (seeded : Int → G) (ops : List (Op G S)) (w : World G S) (a k : Nat) (s : S) (g : G) (h : Own w a k s g)
    (hu : ∀ op ∈ ops, Undisturbed a op) :
    Own (run seeded ops w) a k (alone (s, g) (callsOf a ops)).1 (alone (s, g) (callsOf a ops)).2 := by
  induction ops generalizing w s g with
  | nil => exact h
  | cons op ops ih =>
    have h1 := own_step seeded w op a k s g h (hu op (by simp))
    have h2 := ih _ _ _ h1 fun o ho => hu o (by simp [ho])
    have e : alone (s, g) (callsOf a (op :: ops)) = alone (alone (s, g) (callsOf a [op])) (callsOf a ops) := by
      have : callsOf a (op :: ops) = callsOf a [op] ++ callsOf a ops := by
        unfold callsOf
        rw [← List.filterMap_append]
        rfl
      rw [this]
      unfold alone
      rw [List.foldl_append]
    rw [e]
    exact h2

theorem run_append (seeded : Int → G) (a b : List (Op G S)) (w : World G S) :
    run seeded (a ++ b) w = run seeded b (run seeded a w) := List.foldl_append ..

/-! ## Theorems -/

/-- **C136.** A model constructed with an integer is what its own history makes of it, whatever was done before, and
whatever other models, and users of the global generator, do in between: the same seed and the same calls give the same
model. -/
theorem C136_reproducible (seeded : Int → G) (gens : Ref → G) (before after : List (Op G S)) (a : Nat) (n : Int)
    (init : G → S × G) (hu : ∀ op ∈ after, Undisturbed a op) :
    ∃ r, (run seeded (before ++ .create a (.int n) init :: after) (nobody gens)).objs a
      = some ((alone (init (seeded n)) (callsOf a after)).1, r) ∧
      (run seeded (before ++ .create a (.int n) init :: after) (nobody gens)).gens.get r
        = (alone (init (seeded n)) (callsOf a after)).2 := by
  rw [run_append]
  have hm := made_run seeded before (nobody gens : World G S) (by intro j s n h; cases h)
  generalize hw : run seeded before (nobody gens : World G S) = w at hm
  have h1 : Own (stepOp seeded w (.create a (.int n) init)) a w.gens.made (init (seeded n)).1 (init (seeded n)).2 := by
    refine ⟨?_, ?_, ?_, ?_⟩
    · simp [stepOp, getRandomState, World.put, Gens.new]
    · simp [stepOp, getRandomState, Gens.new, Gens.set]
    · intro j s' hj e
      simp only [stepOp, getRandomState, World.put, Gens.new, if_neg hj] at e
      have := hm j s' _ e
      omega
    · simp [stepOp, getRandomState, Gens.new, Gens.set]
  have h2 := own_run seeded after _ a w.gens.made _ _ h1 hu
  exact ⟨_, h2.obj, h2.gen⟩

/-- **C136.** A model that is stored and loaded goes on as the stored one would have gone on alone, whatever happens to
the stored model and to other generators. -/
theorem C136_reload (seeded : Int → G) (gens : Ref → G) (before after : List (Op G S)) (a b : Nat) (s : S) (r : Ref)
    (ha : (run seeded before (nobody gens)).objs a = some (s, r)) (hu : ∀ op ∈ after, Undisturbed b op) :
    ∃ q, (run seeded (before ++ .reload a b :: after) (nobody gens)).objs b
      = some ((alone (s, (run seeded before (nobody gens : World G S)).gens.get r) (callsOf b after)).1, q) := by
  rw [run_append]
  have hm := made_run seeded before (nobody gens : World G S) (by intro j s n h; cases h)
  generalize hw : run seeded before (nobody gens : World G S) = w at hm ha
  have h1 : Own (stepOp seeded w (.reload a b)) b w.gens.made s (w.gens.get r) := by
    refine ⟨?_, ?_, ?_, ?_⟩
    · simp [stepOp, ha, World.put, Gens.new]
    · simp [stepOp, ha, Gens.new]
    · intro j s' hj e
      simp only [stepOp, ha, World.put, Gens.new, if_neg hj] at e
      have := hm j s' _ e
      omega
    · simp [stepOp, ha, Gens.new]
  exact ⟨_, (own_run seeded after _ b w.gens.made _ _ h1 hu).obj⟩

/-- **C136.** A seed of another kind is refused. -/
theorem C136_refused (seeded : Int → G) (refOf : Nat → Option Ref) (gs : Gens G) :
    getRandomState seeded refOf gs .other = none ∧
    ∀ s, s ≠ .other → (∀ k, s = .state k → refOf k ≠ none) → (getRandomState seeded refOf gs s).isSome := by
  refine ⟨rfl, ?_⟩
  intro s hs hk
  cases s with
  | none => rfl
  | module => rfl
  | int n => rfl
  | state k =>
    have := hk k rfl
    cases h : refOf k with
    | none => exact absurd h this
    | some r => simp [getRandomState, h]
  | other => exact absurd rfl hs

/-- the states of object `a` after two histories differ -/
def Differ (a : Nat) (ops ops' : List (Op Nat Nat)) : Prop :=
  ((run (fun _ => 0) ops (nobody fun _ => 0)).objs a).map Prod.fst
    ≠ ((run (fun _ => 0) ops' (nobody fun _ => 0)).objs a).map Prod.fst

/-- training that keeps the number drawn -/
def trainOnce : Nat → Nat → Nat × Nat := fun _ g => (g, g + 1)

/-- **C136 (limits).** It is not so without a seed (training another model, or seeding the global generator, as
unpacking n-gram vectors does, changes the result), nor for a model that shares its generator (as the LDA model made
from an HDP model does). -/
theorem C136_shared :
    Differ 0 [.create 0 .none fun g => (0, g), .create 1 .none fun g => (0, g), .call 0 trainOnce]
      [.create 0 .none fun g => (0, g), .create 1 .none fun g => (0, g), .call 1 trainOnce, .call 0 trainOnce] ∧
    Differ 0 [.create 0 .none fun g => (0, g), .call 0 trainOnce]
      [.create 0 .none fun g => (0, g), .global (fun _ => 7), .call 0 trainOnce] ∧
    Differ 0 [.create 0 (.int 1) fun g => (0, g), .create 1 (.state 0) fun g => (0, g), .call 0 trainOnce]
      [.create 0 (.int 1) fun g => (0, g), .create 1 (.state 0) fun g => (0, g), .call 1 trainOnce, .call 0 trainOnce] := by
  refine ⟨?_, ?_, ?_⟩ <;> (unfold Differ; decide)

/-! ## Latent Dirichlet allocation -/

theorem drawN_length (draw : G → R × G) (n : Nat) (g : G) : (drawN draw n g).1.length = n := by
  induction n generalizing g with
  | zero => rfl
  | succ n ih => simp [drawN, ih]

theorem drawN_add (draw : G → R × G) (a b : Nat) (g : G) :
    drawN draw (a + b) g = ((drawN draw a g).1 ++ (drawN draw b (drawN draw a g).2).1, (drawN draw b (drawN draw a g).2).2) := by
  induction a generalizing g with
  | zero => simp [drawN]
  | succ a ih =>
    rw [show a + 1 + b = (a + b) + 1 by omega, drawN, ih]
    rfl

/-- **C136.** What queries do to the generator of an LDA model: inferring the topics of `n` documents takes
`n · num_topics` numbers, so that training afterwards starts from the numbers after these; showing all topics and
bounds with given topic weights take none. -/
theorem C136_lda_draws {D A : Type} (draw : G → R × G) (numTopics : Nat) (infer : S → List D → List R → A) (s : S)
    (query chunk : List D) (g : G) (asked : Int) (doc : D) (gamma : A) :
    (inference draw numTopics infer s chunk (inference draw numTopics infer s query g).2).1
      = infer s chunk ((drawN draw (query.length * numTopics + chunk.length * numTopics) g).1.drop (query.length * numTopics)) ∧
    (inference draw numTopics infer s chunk g).1 = infer s chunk (drawN draw (chunk.length * numTopics) g).1 ∧
    (asked < 0 ∨ (numTopics : Int) ≤ asked → showTopics draw numTopics asked g = (none, g)) ∧
    (0 ≤ asked → asked < numTopics → (showTopics draw numTopics asked g).2 = (drawN draw numTopics g).2) ∧
    boundDoc draw numTopics infer s doc (some gamma) g = (gamma, g) := by
  refine ⟨?_, rfl, ?_, ?_, rfl⟩
  · rw [drawN_add]
    simp only [inference]
    rw [List.drop_left' (drawN_length draw _ g)]
  · intro h
    unfold showTopics
    rw [if_pos (by omega)]
  · intro h1 h2
    unfold showTopics
    rw [if_neg (by omega)]

/-- **C136 (finding).** So asking for the topics of a document, or having some of the topics shown, changes what later
training gives, and asking twice may give two answers. -/
theorem C136_queries_matter : ∃ (draw : Nat → Nat × Nat) (infer : Unit → List Unit → List Nat → List Nat) (k g : Nat),
    (inference draw k infer () [()] (inference draw k infer () [()] g).2).1 ≠ (inference draw k infer () [()] g).1 ∧
    (inference draw k infer () [()] (showTopics draw k 1 g).2).1 ≠ (inference draw k infer () [()] g).1 :=
  ⟨fun g => (g, g + 1), fun _ _ γ => γ, 2, 0, by decide, by decide⟩

/-- how many documents the worker had before -/
def docsBefore {D : Type} (w : Nat) (jobs : List (Nat × List D)) : Nat := ((jobs.filter fun j => j.1 == w).map fun j => j.2.length).sum

/-- **C136.** Parallel LDA: every worker draws from its own copy of the model's generator.  The numbers for a chunk
depend on how many documents its worker had before, and on nothing else. -/
theorem C136_multicore {D A : Type} (draw : G → R × G) (numTopics : Nat) (infer : S → List D → List R → A) (s : S) (g : G)
    (jobs rest : List (Nat × List D)) (w : Nat) (chunk : List D) :
    (multicore draw numTopics infer s (jobs ++ (w, chunk) :: rest) fun _ => g).1[jobs.length]?
      = some (infer s chunk ((drawN draw (docsBefore w jobs * numTopics + chunk.length * numTopics) g).1.drop
          (docsBefore w jobs * numTopics))) := by
  have key : ∀ (jobs : List (Nat × List D)) (gs : Nat → G),
      (multicore draw numTopics infer s (jobs ++ (w, chunk) :: rest) gs).1[jobs.length]?
        = some (infer s chunk (drawN draw (chunk.length * numTopics) (drawN draw (docsBefore w jobs * numTopics) (gs w)).2).1) := by
    intro jobs
    induction jobs with
    | nil =>
      intro gs
      simp [multicore, inference, docsBefore, drawN]
    | cons j jobs ih =>
      intro gs
      obtain ⟨v, c⟩ := j
      simp only [List.cons_append, multicore, List.length_cons, List.getElem?_cons_succ]
      rw [ih]
      by_cases hv : w = v
      · subst hv
        have e : docsBefore w ((w, c) :: jobs) = c.length + docsBefore w jobs := by simp [docsBefore]
        rw [e, Nat.add_mul, drawN_add]
        simp [inference]
      · have e : docsBefore w ((v, c) :: jobs) = docsBefore w jobs := by
          have : (v == w) = false := by simp; exact fun h => hv h.symm
          simp [docsBefore, this]
        rw [e, if_neg hv]
  rw [key, drawN_add]
  simp only
  rw [List.drop_left' (drawN_length draw _ g)]

/-- **C136 (finding).** Hence the same seed does not give the same result: it depends on which worker gets which chunk;
and the workers start with the same numbers as each other. -/
theorem C136_multicore_schedule :
    (multicore (fun g : Nat => (g, g + 1)) 1 (fun (_ : Unit) (_ : List Unit) γ => γ) () [(0, [()]), (1, [()])] fun _ => 0).1
      ≠ (multicore (fun g : Nat => (g, g + 1)) 1 (fun (_ : Unit) (_ : List Unit) γ => γ) () [(0, [()]), (0, [()])] fun _ => 0).1 := by
  decide

/-! ## Word2Vec and its kin -/

/-- **C136.** With one worker the result of an epoch does not depend on the timing of the threads: it is that of
training on the jobs in the order of the corpus. -/
theorem C136_one_worker {J M : Type} {cj cp : Nat} {raw : J → Nat} {js : List J} {n : Nat} {t : W2V.Epoch J}
    (train : M → J → M) (m : M) (st : Chunk.Steps (W2V.EStep cj cp raw) (W2V.epochInit 1 js) n t) (hend : t.unfinished = 0) :
    (t.log.map Prod.fst).foldl train m = js.foldl train m := by
  rw [W2V.C29_one_worker_in_order st hend]

/-- **C136 (limit).** With two workers it does: two jobs are trained in either order. -/
theorem C136_two_workers : ∃ n t n' t',
    Chunk.Steps (W2V.EStep 4 4 fun _ : Nat => 1) (W2V.epochInit 2 [1, 2]) n t ∧ t.unfinished = 0 ∧
    Chunk.Steps (W2V.EStep 4 4 fun _ : Nat => 1) (W2V.epochInit 2 [1, 2]) n' t' ∧ t'.unfinished = 0 ∧
    (t.log.map Prod.fst).foldl (fun _ j => j) 0 ≠ (t'.log.map Prod.fst).foldl (fun _ j => j) 0 := by
  refine ⟨_, _, _, _,
    (((((((((((((((((Chunk.Steps.refl _).tail (.put (x := some 1) (r := [some 2, none, none]) rfl (by decide))).tail
      (.put (x := some 2) (r := [none, none]) rfl (by decide))).tail
      (.put (x := none) (r := [none]) rfl (by decide))).tail
      (.put (x := none) (r := []) rfl (by decide))).tail
      (.get (a := []) (b := [.idle]) (j := 1) (q := [some 2, none, none]) rfl rfl)).tail
      (.get (a := [.busy 1]) (b := []) (j := 2) (q := [none, none]) rfl rfl)).tail
      (.train (a := []) (b := [.busy 2]) (j := 1) 1 rfl)).tail
      (.train (a := [.trained 1 1]) (b := []) (j := 2) 1 rfl)).tail
      (.report (a := []) (b := [.trained 2 1]) (j := 1) (n := 1) rfl (by decide))).tail
      (.report (a := [.idle]) (b := []) (j := 2) (n := 1) rfl (by decide))).tail
      (.stop (a := []) (b := [.idle]) (q := [none]) rfl rfl)).tail
      (.stop (a := [.closing]) (b := []) (q := []) rfl rfl)).tail
      (.quit (a := []) (b := [.closing]) rfl (by decide))).tail
      (.quit (a := [.done]) (b := []) rfl (by decide))).tail
      (.count (j := 1) (n := 1) (q := [some (2, 1), none, none]) (by decide) rfl)).tail
      (.count (j := 2) (n := 1) (q := [none, none]) (by decide) rfl)).tail
      (.finished (q := [none]) (by decide) rfl) |>.tail
      (.finished (q := []) (by decide) rfl), by decide,
    (((((((((((((((((Chunk.Steps.refl _).tail (.put (x := some 1) (r := [some 2, none, none]) rfl (by decide))).tail
      (.put (x := some 2) (r := [none, none]) rfl (by decide))).tail
      (.put (x := none) (r := [none]) rfl (by decide))).tail
      (.put (x := none) (r := []) rfl (by decide))).tail
      (.get (a := []) (b := [.idle]) (j := 1) (q := [some 2, none, none]) rfl rfl)).tail
      (.get (a := [.busy 1]) (b := []) (j := 2) (q := [none, none]) rfl rfl)).tail
      (.train (a := [.busy 1]) (b := []) (j := 2) 1 rfl)).tail
      (.train (a := []) (b := [.trained 2 1]) (j := 1) 1 rfl)).tail
      (.report (a := []) (b := [.trained 2 1]) (j := 1) (n := 1) rfl (by decide))).tail
      (.report (a := [.idle]) (b := []) (j := 2) (n := 1) rfl (by decide))).tail
      (.stop (a := []) (b := [.idle]) (q := [none]) rfl rfl)).tail
      (.stop (a := [.closing]) (b := []) (q := []) rfl rfl)).tail
      (.quit (a := []) (b := [.closing]) rfl (by decide))).tail
      (.quit (a := [.done]) (b := []) rfl (by decide))).tail
      (.count (j := 1) (n := 1) (q := [some (2, 1), none, none]) (by decide) rfl)).tail
      (.count (j := 2) (n := 1) (q := [none, none]) (by decide) rfl)).tail
      (.finished (q := [none]) (by decide) rfl) |>.tail
      (.finished (q := []) (by decide) rfl), by decide, by decide⟩

/-- **C136 (finding).** A model of an early version, stored without a generator, gets one of a kind that training
cannot use: every batch raises.  A model that has one can be trained; it takes one number for every word, and two more
if there is negative sampling or downsampling; every window is smaller than the full one. -/
theorem C136_loaded (draw : G → Nat × G) (seedNeeded : Bool) (window words : Nat) (g : G) :
    batchDraws draw (loadedKind none) seedNeeded window words g = none ∧
    ∃ r, batchDraws draw (loadedKind (some .randomState)) seedNeeded window words g = some r ∧
      r.2 = (drawN draw ((if seedNeeded then 2 else 0) + words) g).2 ∧ r.1.2.length = words ∧
      (0 < window → ∀ x ∈ r.1.2, x < window) ∧ (r.1.1.isSome = seedNeeded) := by
  refine ⟨rfl, _, rfl, ?_, ?_, ?_, ?_⟩
  · cases seedNeeded
    · simp
    · rw [if_pos rfl, drawN_add]
      rfl
  · simp [drawN_length]
  · intro hw x hx
    obtain ⟨y, _, rfl⟩ := List.mem_map.1 hx
    exact Nat.mod_lt _ hw
  · cases seedNeeded <;> rfl

/-- **C136 (finding).** Training from a file with neither negative sampling nor downsampling takes its windows from
uninitialised memory, so no seed determines them (unless the window is 1); otherwise the generator of the model does. -/
theorem C136_file_windows (draw : G → Nat × G) (g : G) (window words : Nat) (hw : 2 ≤ window) (h : 0 < words) :
    (∀ x y, fileSeed draw true x g = fileSeed draw true y g) ∧
    ∃ x y, fileWindows window words (fileSeed draw false x g).1 ≠ fileWindows window words (fileSeed draw false y g).1 := by
  refine ⟨fun _ _ => rfl, 0, 2 ^ 16, ?_⟩
  obtain ⟨n, rfl⟩ : ∃ n, words = n + 1 := ⟨words - 1, by omega⟩
  intro e
  have := congrArg List.head? e
  simp only [fileSeed, fileWindows, randomInt32, List.head?_cons, Option.some.injEq] at this
  simp [Nat.mod_eq_of_lt (show 1 < window by omega)] at this

/-! ## Cases -/

/-- two histories around a seeded model that meet the hypotheses of `C136_reproducible` -/
example : ∀ op ∈ [Op.global (fun _ => 7), Op.create 1 .none (fun g => (0, g)), .call 1 trainOnce, .call 0 trainOnce, .reload 0 2],
    Undisturbed 0 op := by
  intro op h
  simp only [List.mem_cons, List.not_mem_nil, or_false] at h
  rcases h with rfl | rfl | rfl | rfl | rfl <;> simp [Undisturbed]

example : (run (fun n => n.toNat) [.create 0 (.int 5) fun g => (g, g + 1), .call 0 trainOnce] (nobody fun _ => 0)).objs 0
    = some (6, .own 0) := by decide

/-- C136: the windows of file training come from the same generator as negative samples and downsampling. -/
theorem C136_same_generator (x : Nat) : randomInt32 x = (W2V.randomInt32 x, W2V.nextRandom x) := by
  rw [W2V.nextRandom_eq, W2V.randomInt32, Nat.shiftRight_eq_div_pow]
  rfl

end Verif.Random
