import Verif.Life.Model
import Verif.W2V.OnlineProps
import Verif.W2V.EpochProps
import Verif.W2V.JobProps

/-!
# C112: the life cycle of a Word2Vec model
-/

namespace Verif.Life
open Verif PyDict

variable {α : Type}

/-! ### Specification -/

/-- The corpus arguments `train` takes for `e` epochs: either an iterable, which must not be a generator
if there is more than one epoch, or the path of a file, together with a non-zero number of words. -/
def CorpusOk (it : Option (Corpus α)) (file : Option Bool) (words : Option Nat) (e : Int) : Prop :=
  (file = none ∧ ∃ c, it = some c ∧ c ≠ .other ∧ ∀ l, c = .gen l → e = 1) ∨
  (it = none ∧ file = some true ∧ ∃ n, words = some n ∧ n ≠ 0)

/-- What the epochs see: a sequence is seen in full every time, an iterator only once. -/
def sees : Nat → Option (Corpus α) → List (Option (List α))
  | 0, _ => []
  | n + 1, none => none :: sees n none
  | n + 1, some (.seq l) => some l :: sees n (some (.seq l))
  | n + 1, some (.gen l) => some l :: List.replicate n (some [])
  | n + 1, some (.iter l) => some l :: List.replicate n (some [])
  | n + 1, some .other => List.replicate (n + 1) (some [])

/-- The course of a training: every callback is told about the beginning and the end of the training and
of every epoch. -/
def schedule (cbs : Nat) (seen : List (Option (List α))) : List (Ev α) :=
  (List.range cbs).map .trainBegin ++
  (seen.map fun s => (List.range cbs).map .epochBegin ++ [.epoch s] ++ (List.range cbs).map .epochEnd).flatten ++
  (List.range cbs).map .trainEnd

/-- The events callback `i` is told of. -/
def told (i : Nat) : Ev α → Bool
  | .trainBegin j => i = j
  | .epochBegin j => i = j
  | .epoch _ => false
  | .epochEnd j => i = j
  | .trainEnd j => i = j

/-! ### Training -/

theorem sees_succ (n : Nat) (c : Corpus α) :
    sees (n + 1) (some c) = some c.pass.1 :: sees n (some c.pass.2) := by
  have hempty : ∀ (f : List α → Corpus α), (f = .gen ∨ f = .iter) → ∀ n,
      sees n (some (f [])) = List.replicate n (some ([] : List α)) := by
    intro f hf n
    cases n with
    | zero => rcases hf with rfl | rfl <;> simp [sees]
    | succ n => rcases hf with rfl | rfl <;> simp [sees, List.replicate_succ]
  cases c with
  | seq l => simp [sees, Corpus.pass]
  | gen l => simp only [sees, Corpus.pass]; rw [hempty _ (.inl rfl)]
  | iter l => simp only [sees, Corpus.pass]; rw [hempty _ (.inr rfl)]
  | other =>
    simp only [sees, Corpus.pass, List.replicate_succ]
    cases n <;> simp [sees, List.replicate_succ]

/-- The events of the epochs. -/
def body (cbs : Nat) (seen : List (Option (List α))) : List (Ev α) :=
  (seen.map fun s => (List.range cbs).map .epochBegin ++ [.epoch s] ++ (List.range cbs).map .epochEnd).flatten

theorem epochLoop_some (cbs : Nat) (words : Option Nat) (n : Nat) : ∀ (c : Corpus α) (evs : List (Ev α)),
    ∃ c', epochLoop cbs words n (some c) evs = (some c', evs ++ body cbs (sees n (some c)), .ok ()) := by
  induction n with
  | zero => intro c evs; exact ⟨c, by simp [epochLoop, sees, body]⟩
  | succ n ih =>
    intro c evs
    unfold epochLoop
    obtain ⟨c', hc'⟩ := ih c.pass.2 (evs ++ (List.range cbs).map .epochBegin ++
      [.epoch (some c.pass.1)] ++ (List.range cbs).map .epochEnd)
    refine ⟨c', ?_⟩
    simp only
    rw [hc', sees_succ]
    simp [body]

theorem epochLoop_none (cbs : Nat) (words : Option Nat) (hw : truthy words = true) (n : Nat) :
    ∀ (evs : List (Ev α)),
    epochLoop cbs words n none evs = (none, evs ++ body cbs (sees n none), .ok ()) := by
  induction n with
  | zero => intro evs; simp [epochLoop, sees, body]
  | succ n ih =>
    intro evs
    unfold epochLoop
    simp only [hw, if_true]
    rw [ih]
    simp [body, sees]

theorem truthy_iff (x : Option Nat) : truthy x = true ↔ ∃ n, x = some n ∧ n ≠ 0 := by
  cases x with
  | none => simp [truthy]
  | some n => simp [truthy]

theorem checkTraining_iff (m : Mdl) (a : Args) : checkTraining m a = .ok () ↔
    m.vocab ≠ 0 ∧ m.vecs ≠ 0 ∧ (a.totalWords ≠ none ∨ a.totalExamples ≠ none) ∧
    ∃ e, a.epochs = some e ∧ 0 < e := by
  unfold checkTraining
  by_cases h1 : m.vocab = 0
  · simp [h1]
  by_cases h2 : m.vecs = 0
  · simp [h1, h2]
  by_cases h3 : a.totalWords = none ∧ a.totalExamples = none
  · simp [h1, h2, h3]
  rw [if_neg h1, if_neg h2, if_neg h3]
  have h3' : a.totalWords ≠ none ∨ a.totalExamples ≠ none := by
    by_contra hc
    exact h3 ⟨Classical.not_not.1 fun h => hc (.inl h), Classical.not_not.1 fun h => hc (.inr h)⟩
  cases he : a.epochs with
  | none => simp
  | some e =>
    simp only
    by_cases h4 : e ≤ 0
    · rw [if_pos h4]
      constructor
      · intro h; simp at h
      · rintro ⟨_, _, _, e', h5, h6⟩
        rw [Option.some.injEq] at h5
        omega
    · rw [if_neg h4]
      exact ⟨fun _ => ⟨h1, h2, h3', e, rfl, by omega⟩, fun _ => rfl⟩

theorem checkCorpus_iff (it : Option (Corpus α)) (file : Option Bool) (e : Int) (he : 0 < e) :
    checkCorpus it file e = .ok () ↔
      (file = none ∧ ∃ c, it = some c ∧ c ≠ .other ∧ ∀ l, c = .gen l → e = 1) ∨
      (it = none ∧ file = some true) := by
  unfold checkCorpus
  cases it with
  | none =>
    cases file with
    | none => simp
    | some b => cases b <;> simp
  | some c =>
    cases file with
    | some b => simp
    | none =>
      cases c with
      | seq l => simp [Corpus.iterable, Corpus.isGen]
      | gen l =>
        simp only [Corpus.iterable, Corpus.isGen, true_and, Bool.not_true, Bool.false_eq_true, if_false]
        by_cases h : e > 1
        · rw [if_pos h]
          simp
          omega
        · rw [if_neg h]
          simp
          omega
      | iter l => simp [Corpus.iterable, Corpus.isGen]
      | other => simp [Corpus.iterable]

/-- **C112.** `train` passes all of its checks exactly when there is a vocabulary with vectors, a total is given, the
number of epochs is given and positive, and the corpus is one that can be read that often. -/
theorem C112_train_iff (m : Mdl) (it : Option (Corpus α)) (file : Option Bool) (a : Args) :
    (train m it file a).result = .ok () ↔
      m.vocab ≠ 0 ∧ m.vecs ≠ 0 ∧ (a.totalWords ≠ none ∨ a.totalExamples ≠ none) ∧
      ∃ e, a.epochs = some e ∧ 0 < e ∧ CorpusOk it file a.totalWords e := by
  unfold train
  simp only
  set m' : Mdl := { m with
    alpha := orElse a.startAlpha m.alpha, minAlpha := orElse a.endAlpha m.minAlpha, epochs := a.epochs }
  have hct := checkTraining_iff m' a
  cases hc : checkTraining m' a with
  | error e =>
    simp only
    constructor
    · intro h; simp at h
    · rintro ⟨h1, h2, h3, e', h4, h5, _⟩
      rw [hct.2 ⟨h1, h2, h3, e', h4, h5⟩] at hc
      simp at hc
  | ok u =>
    obtain ⟨h1, h2, h3, e, h4, h5⟩ := hct.1 hc
    have hcc := checkCorpus_iff it file e h5
    simp only [h4, Option.getD_some]
    cases hk : checkCorpus it file e with
    | error x =>
      simp only
      constructor
      · intro h; simp at h
      · rintro ⟨_, _, _, e', h6, h7, h8⟩
        rw [Option.some.injEq] at h6
        subst h6
        have : checkCorpus it file e = .ok () := by
          rw [hcc]
          rcases h8 with h8 | ⟨h8, h9, _⟩
          · exact .inl h8
          · exact .inr ⟨h8, h9⟩
        rw [this] at hk
        simp at hk
    | ok u =>
      simp only
      rcases hcc.1 hk with ⟨hf, c, hit, hco, hg⟩ | ⟨hit, hf⟩
      · subst hit
        obtain ⟨c', hc'⟩ := epochLoop_some a.callbacks a.totalWords e.toNat c
          ((List.range a.callbacks).map .trainBegin)
        rw [hc']
        simp only
        exact ⟨fun _ => ⟨h1, h2, h3, e, rfl, h5, .inl ⟨hf, c, rfl, hco, hg⟩⟩, fun _ => trivial⟩
      · subst hit
        by_cases hw : truthy a.totalWords = true
        · rw [epochLoop_none _ _ hw]
          simp only
          refine ⟨fun _ => ⟨h1, h2, h3, e, rfl, h5, .inr ⟨rfl, hf, (truthy_iff _).1 hw⟩⟩, fun _ => trivial⟩
        · have hpos : ∃ n, e.toNat = n + 1 := ⟨e.toNat - 1, by omega⟩
          obtain ⟨n, hn⟩ := hpos
          rw [hn]
          simp only [epochLoop, hw]
          constructor
          · intro h; simp at h
          · rintro ⟨_, _, _, e', _, _, h8⟩
            rcases h8 with ⟨_, c, h9, _⟩ | ⟨_, _, h9⟩
            · simp at h9
            · exact absurd ((truthy_iff _).2 h9) hw

/-- **C112.** When `train` returns, the epochs were run one after the other, each on what the corpus gave
at that point (a sequence: all of it; an iterator: everything the first time, then nothing), the callbacks
were told in order, and the number of trainings went up by one; vocabulary, vectors and corpus counts have
the same size as before. -/
theorem C112_train_run (m : Mdl) (it : Option (Corpus α)) (file : Option Bool) (a : Args) (e : Nat)
    (he : a.epochs = some (e : Int)) (h : (train m it file a).result = .ok ()) :
    (train m it file a).events = schedule a.callbacks (sees e it) ∧
    (train m it file a).model = { m with
      alpha := orElse a.startAlpha m.alpha, minAlpha := orElse a.endAlpha m.minAlpha
      epochs := some (e : Int), trainCount := m.trainCount + 1 } := by
  obtain ⟨h1, h2, h3, e', h4, h5, h6⟩ := (C112_train_iff m it file a).1 h
  rw [he, Option.some.injEq] at h4
  subst h4
  unfold train
  simp only
  have hct : checkTraining { m with
      alpha := orElse a.startAlpha m.alpha, minAlpha := orElse a.endAlpha m.minAlpha, epochs := a.epochs } a =
      .ok () := (checkTraining_iff _ a).2 ⟨h1, h2, h3, e, he, h5⟩
  rw [hct]
  have hcc : checkCorpus it file (e : Int) = .ok () := by
    rw [checkCorpus_iff it file e h5]
    rcases h6 with h6 | ⟨h6, h7, _⟩
    · exact .inl h6
    · exact .inr ⟨h6, h7⟩
  simp only [he, Option.getD_some, hcc, Int.toNat_natCast]
  rcases h6 with ⟨_, c, hit, _⟩ | ⟨hit, _, hw⟩
  · subst hit
    obtain ⟨c', hc'⟩ := epochLoop_some a.callbacks a.totalWords e c ((List.range a.callbacks).map .trainBegin)
    rw [hc']
    exact ⟨by simp [schedule, body], rfl⟩
  · subst hit
    rw [epochLoop_none _ _ ((truthy_iff _).2 hw)]
    exact ⟨by simp [schedule, body], rfl⟩

theorem filter_range_eq (f : Nat → Ev α) (hf : ∀ i j, told i (f j) = decide (i = j)) (i cbs : Nat) (hi : i < cbs) :
    ((List.range cbs).map f).filter (told i) = [f i] := by
  rw [List.filter_map]
  have : (told i ∘ f) = fun j => decide (i = j) := by
    funext j; exact hf i j
  rw [this]
  have h2 : (List.range cbs).filter (fun j => decide (i = j)) = [i] := by
    induction cbs with
    | zero => omega
    | succ n ih =>
      rw [List.range_succ, List.filter_append]
      by_cases h : i < n
      · rw [ih h]
        have : ¬ i = n := by omega
        simp [this]
      · have h0 : i = n := by omega
        subst h0
        have : (List.range i).filter (fun j => decide (i = j)) = [] := by
          rw [List.filter_eq_nil_iff]
          intro j hj
          rw [List.mem_range] at hj
          simp only [decide_eq_true_eq]
          omega
        rw [this]
        simp
  rw [h2]
  rfl

/-- **C112.** Every callback is told of the beginning of the training, then of the beginning and the end of
every epoch in turn, then of the end of the training. -/
theorem C112_callbacks (m : Mdl) (it : Option (Corpus α)) (file : Option Bool) (a : Args) (e : Nat)
    (he : a.epochs = some (e : Int)) (h : (train m it file a).result = .ok ()) (i : Nat)
    (hi : i < a.callbacks) :
    (train m it file a).events.filter (told i) =
      .trainBegin i :: ((List.replicate e [.epochBegin i, .epochEnd i]).flatten ++ [.trainEnd i]) := by
  rw [(C112_train_run m it file a e he h).1]
  unfold schedule
  rw [List.filter_append, List.filter_append, filter_range_eq _ (fun _ _ => rfl) i _ hi,
    filter_range_eq _ (fun _ _ => rfl) i _ hi]
  have hlen : (sees e it).length = e := by
    have key : ∀ (n : Nat) (it : Option (Corpus α)), (sees n it).length = n := by
      intro n
      induction n with
      | zero => intro it; cases it <;> simp [sees]
      | succ n ih =>
        intro it
        cases it with
        | none => simp [sees, ih]
        | some c => rw [sees_succ]; simp [ih]
    exact key e it
  have hbody : ∀ l : List (Option (List α)),
      ((l.map fun s => (List.range a.callbacks).map Ev.epochBegin ++ [Ev.epoch s] ++
        (List.range a.callbacks).map Ev.epochEnd).flatten).filter (told i) =
      (List.replicate l.length [Ev.epochBegin i, Ev.epochEnd i]).flatten := by
    intro l
    induction l with
    | nil => rfl
    | cons s l ih =>
      rw [List.map_cons, List.flatten_cons, List.filter_append, ih, List.filter_append, List.filter_append,
        filter_range_eq _ (fun _ _ => rfl) i _ hi, filter_range_eq _ (fun _ _ => rfl) i _ hi,
        List.length_cons, List.replicate_succ, List.flatten_cons]
      rfl
  rw [hbody, hlen]
  rfl

/-- **C112 (finding).** A call of `train` that fails still replaces the model's number of epochs by the
argument (`None`, 0, ...) and its learning rates; everything else stays. -/
theorem C112_train_failed (m : Mdl) (it : Option (Corpus α)) (file : Option Bool) (a : Args) (e : Err)
    (h : (train m it file a).result = .error e) :
    (train m it file a).model = { m with
      alpha := orElse a.startAlpha m.alpha, minAlpha := orElse a.endAlpha m.minAlpha, epochs := a.epochs } := by
  unfold train at h ⊢
  simp only at h ⊢
  split
  · rfl
  · rename_i hc
    simp only [hc] at h
    split
    · rfl
    · rename_i hk
      simp only [hk] at h
      split
      · rfl
      · rename_i hl
        simp only [hl] at h
        simp at h

/-- **C112 (finding).** A learning rate of 0 in the arguments is ignored; any other one is taken. -/
theorem C112_alpha (m : Mdl) (it : Option (Corpus α)) (file : Option Bool) (a : Args) (x : ℚ)
    (hx : a.startAlpha = some x) :
    (train m it file a).model.alpha = if x = 0 then m.alpha else x := by
  have hor : orElse a.startAlpha m.alpha = if x = 0 then m.alpha else x := by rw [hx]; rfl
  cases hr : (train m it file a).result with
  | error e => rw [C112_train_failed m it file a e hr]; exact hor
  | ok u =>
    obtain ⟨_, _, _, e, h4, h5, _⟩ := (C112_train_iff m it file a).1 hr
    have h4' : a.epochs = some ((e.toNat : Nat) : Int) := by rw [h4]; congr 1; omega
    rw [(C112_train_run m it file a e.toNat h4' hr).2]
    exact hor

/-! ### The constructor -/

/-- **C112.** A model constructed from a sequence of sentences of which some word is kept: every one of the
`epochs` passes sees all the sentences. -/
theorem C112_construct (kept : List α → Nat) (len : α → Nat) (alpha minAlpha : ℚ) (e cbs : Nat) (he : 0 < e)
    (l : List α) (hl : kept l ≠ 0) :
    let o := construct kept len alpha minAlpha e cbs (.seq l)
    o.result = .ok () ∧ o.events = schedule cbs (List.replicate e (some l)) ∧ o.model.trainCount = 1 ∧
    o.model.corpusCount = l.length ∧ o.model.totalWords = (l.map len).sum := by
  intro o
  have hck : checkCorpus (some (Corpus.seq l)) none ((e : Int) + 1) = .ok () := by
    simp [checkCorpus, Corpus.iterable, Corpus.isGen]
  have hb : buildVocab kept len (fresh alpha minAlpha e) (some (.seq l)) =
      ⟨{ fresh alpha minAlpha e with
          vocab := kept l, vecs := kept l, corpusCount := l.length, totalWords := (l.map len).sum },
        some (.seq l), [], .ok ()⟩ := by
    simp [buildVocab, checkCorpus, Corpus.iterable, Corpus.isGen, Corpus.pass]
  have ho : o = train { fresh alpha minAlpha e with
          vocab := kept l, vecs := kept l, corpusCount := l.length, totalWords := (l.map len).sum }
        (some (.seq l)) none
        ⟨some l.length, some (l.map len).sum, some (e : Int), some alpha, some minAlpha, cbs⟩ := by
    show construct kept len alpha minAlpha e cbs (.seq l) = _
    unfold construct
    simp only [hck, hb]
    rfl
  have hres : o.result = .ok () := by
    rw [ho, C112_train_iff]
    refine ⟨hl, hl, .inl (by simp), e, rfl, by omega, .inl ⟨rfl, _, rfl, by simp, by simp⟩⟩
  have hrun := C112_train_run _ _ _ _ e rfl (by rw [← ho]; exact hres)
  rw [← ho] at hrun
  have hsees : sees e (some (Corpus.seq l)) = List.replicate e (some l) := by
    clear hrun hres ho hb hck he o
    induction e with
    | zero => rfl
    | succ n ih => simp only [sees, ih, List.replicate_succ]
  refine ⟨hres, ?_, ?_, ?_, ?_⟩
  · rw [hrun.1, hsees]
  · rw [hrun.2]; rfl
  · rw [hrun.2]
  · rw [hrun.2]

/-- **C112.** A generator is refused by the constructor, before anything is read from it. -/
theorem C112_construct_generator (kept : List α → Nat) (len : α → Nat) (alpha minAlpha : ℚ) (e cbs : Nat)
    (he : 0 < e) (l : List α) :
    let o := construct kept len alpha minAlpha e cbs (.gen l)
    o.result = .error .type ∧ o.corpus = some (.gen l) ∧ o.events = [] := by
  have hck : checkCorpus (some (Corpus.gen l)) none ((e : Int) + 1) = .error .type := by
    unfold checkCorpus
    simp only [Corpus.iterable, Corpus.isGen, true_and, Bool.not_true, Bool.false_eq_true, if_false]
    rw [if_pos (by omega)]
  intro o
  have ho : o = ⟨fresh alpha minAlpha e, some (.gen l), [], .error .type⟩ := by
    show construct kept len alpha minAlpha e cbs (.gen l) = _
    unfold construct
    simp only [hck]
  rw [ho]
  exact ⟨rfl, rfl, rfl⟩

/-- **C112 (finding).** Any other iterator is accepted: the vocabulary is built from all its sentences, and
then every epoch of the training sees nothing; no exception is raised. -/
theorem C112_construct_iterator (kept : List α → Nat) (len : α → Nat) (alpha minAlpha : ℚ) (e cbs : Nat)
    (he : 0 < e) (l : List α) (hl : kept l ≠ 0) :
    let o := construct kept len alpha minAlpha e cbs (.iter l)
    o.result = .ok () ∧ o.events = schedule cbs (List.replicate e (some [])) ∧ o.model.vocab = kept l ∧
    o.model.corpusCount = l.length := by
  intro o
  have hck : checkCorpus (some (Corpus.iter l)) none ((e : Int) + 1) = .ok () := by
    simp [checkCorpus, Corpus.iterable, Corpus.isGen]
  have hb : buildVocab kept len (fresh alpha minAlpha e) (some (.iter l)) =
      ⟨{ fresh alpha minAlpha e with
          vocab := kept l, vecs := kept l, corpusCount := l.length, totalWords := (l.map len).sum },
        some (.iter []), [], .ok ()⟩ := by
    simp [buildVocab, checkCorpus, Corpus.iterable, Corpus.isGen, Corpus.pass]
  have ho : o = train { fresh alpha minAlpha e with
          vocab := kept l, vecs := kept l, corpusCount := l.length, totalWords := (l.map len).sum }
        (some (.iter [])) none
        ⟨some l.length, some (l.map len).sum, some (e : Int), some alpha, some minAlpha, cbs⟩ := by
    show construct kept len alpha minAlpha e cbs (.iter l) = _
    unfold construct
    simp only [hck, hb]
    rfl
  have hres : o.result = .ok () := by
    rw [ho, C112_train_iff]
    refine ⟨hl, hl, .inl (by simp), e, rfl, by omega, .inl ⟨rfl, _, rfl, by simp, by simp⟩⟩
  have hrun := C112_train_run _ _ _ _ e rfl (by rw [← ho]; exact hres)
  rw [← ho] at hrun
  have hsees : sees e (some (Corpus.iter ([] : List α))) = List.replicate e (some []) := by
    cases e with
    | zero => rfl
    | succ n => simp only [sees, List.replicate_succ]
  refine ⟨hres, ?_, ?_, ?_⟩
  · rw [hrun.1, hsees]
  · rw [hrun.2]
  · rw [hrun.2]

/-- **C112.** No words kept: RuntimeError; no epochs: ValueError. -/
theorem C112_construct_errors (kept : List α → Nat) (len : α → Nat) (alpha minAlpha : ℚ) (e : Int) (cbs : Nat)
    (l : List α) (h : kept l = 0 ∨ e ≤ 0) :
    (construct kept len alpha minAlpha e cbs (.seq l)).result =
      .error (if kept l = 0 then .runtime else .value) := by
  have hck : checkCorpus (some (Corpus.seq l)) none (e + 1) = .ok () := by
    simp [checkCorpus, Corpus.iterable, Corpus.isGen]
  have hb : buildVocab kept len (fresh alpha minAlpha e) (some (.seq l)) =
      ⟨{ fresh alpha minAlpha e with
          vocab := kept l, vecs := kept l, corpusCount := l.length, totalWords := (l.map len).sum },
        some (.seq l), [], .ok ()⟩ := by
    simp [buildVocab, checkCorpus, Corpus.iterable, Corpus.isGen, Corpus.pass]
  unfold construct
  simp only [hck, hb, train, checkTraining]
  by_cases h0 : kept l = 0
  · simp [h0]
  · have he : e ≤ 0 := h.resolve_left h0
    simp [h0, fresh, he]

/-! ### Histories -/

/-- **C112.** Over any history of vocabulary building and training, `train_count` counts the calls of
`train` that returned. -/
theorem C112_train_count (ops : List (Op α)) : ∀ m : Mdl,
    (runs m ops).1.trainCount = m.trainCount + (runs m ops).2 := by
  induction ops with
  | nil => intro m; rfl
  | cons op ops ih =>
    intro m
    simp only [runs]
    rw [ih]
    have hop : (op.run m).1.trainCount = m.trainCount + if (op.run m).2 then 1 else 0 := by
      cases op with
      | vocab f h => simp [Op.run, h]
      | train it file a =>
        show (train m it file a).model.trainCount =
          m.trainCount + if isOk (train m it file a).result then 1 else 0
        have hcases : ∀ r : Except Err Unit, (∃ e, r = .error e) ∨ r = .ok () := by
          intro r; cases r <;> simp
        rcases hcases (train m it file a).result with ⟨e, hr⟩ | hr
        · rw [C112_train_failed m it file a e hr, hr]
          simp [isOk]
        · obtain ⟨_, _, _, e, h4, h5, _⟩ := (C112_train_iff m it file a).1 hr
          have h4' : a.epochs = some ((e.toNat : Nat) : Int) := by rw [h4]; congr 1; omega
          rw [(C112_train_run m it file a e.toNat h4' hr).2, hr]
          simp [isOk]
    rw [hop]
    omega

/-! ### Totals of 0 -/

theorem produce_ok (bw : Nat) (len : α → Nat) (ex words : Option Nat)
    (ht : (truthy ex || truthy words) = true) (ds : List α) : ∀ batch size js,
    (produce bw len ex words ds batch size js).2 = true ∧
    (produce bw len ex words ds batch size js).1.flatten = js.flatten ++ batch ++ ds := by
  induction ds with
  | nil =>
    intro batch size js
    simp only [produce]
    by_cases h : batch = []
    · simp [h]
    · simp [h]
  | cons d ds ih =>
    intro batch size js
    simp only [produce]
    split
    · obtain ⟨h1, h2⟩ := ih (batch ++ [d]) (size + len d) js
      exact ⟨h1, by rw [h2]; simp⟩
    · obtain ⟨h1, h2⟩ := ih [d] (len d) (js ++ [batch])
      exact ⟨h1, by rw [h2]; simp⟩

theorem produce_fail (bw : Nat) (len : α → Nat) (ex words : Option Nat)
    (ht : (truthy ex || truthy words) = false) (ds : List α) : ∀ batch size js,
    (produce bw len ex words ds batch size js).2 = decide (ds = [] ∨ size + (ds.map len).sum ≤ bw) := by
  induction ds with
  | nil => intro batch size js; simp [produce]
  | cons d ds ih =>
    intro batch size js
    simp only [produce]
    by_cases h : size + len d ≤ bw
    · rw [if_pos h, ih]
      congr 1
      simp only [List.map_cons, List.sum_cons, reduceCtorEq, false_or, eq_iff_iff]
      constructor
      · rintro (rfl | h2)
        · simpa using h
        · omega
      · intro h2; right; omega
    · rw [if_neg h, ht]
      simp only [Bool.false_eq_true, if_false]
      symm
      rw [decide_eq_false_iff_not]
      simp only [List.map_cons, List.sum_cons, reduceCtorEq, false_or]
      omega

/-- Nothing says that a worker may end. -/
def NoEnd {J : Type} (s : W2V.Epoch J) : Prop :=
  none ∉ s.rest ∧ none ∉ s.jobQ ∧ none ∉ s.progQ ∧ (∀ w ∈ s.workers, w ≠ .closing)

theorem noEnd_step {J : Type} {cj cp : Nat} {raw : J → Nat} {s t : W2V.Epoch J} (h : NoEnd s)
    (st : W2V.EStep cj cp raw s t) : NoEnd t ∧ t.unfinished = s.unfinished := by
  obtain ⟨h1, h2, h3, h4⟩ := h
  cases st with
  | put hr _ =>
    rw [hr] at h1
    simp only [List.mem_cons, not_or] at h1
    refine ⟨⟨h1.2, ?_, h3, h4⟩, rfl⟩
    simp only [List.mem_append, List.mem_singleton, not_or]
    exact ⟨h2, h1.1⟩
  | get hw hq =>
    rw [hq] at h2
    simp only [List.mem_cons, not_or] at h2
    refine ⟨⟨h1, h2.2, h3, ?_⟩, rfl⟩
    intro w hw'
    simp only [List.mem_append, List.mem_cons] at hw'
    rcases hw' with hw' | rfl | hw'
    · exact h4 w (by rw [hw]; simp [hw'])
    · simp
    · exact h4 w (by rw [hw]; simp [hw'])
  | stop hw hq => rw [hq] at h2; simp at h2
  | train n hw =>
    refine ⟨⟨h1, h2, h3, ?_⟩, rfl⟩
    intro w hw'
    simp only [List.mem_append, List.mem_cons] at hw'
    rcases hw' with hw' | rfl | hw'
    · exact h4 w (by rw [hw]; simp [hw'])
    · simp
    · exact h4 w (by rw [hw]; simp [hw'])
  | report hw _ =>
    refine ⟨⟨h1, h2, ?_, ?_⟩, rfl⟩
    · simp only [List.mem_append, List.mem_singleton, not_or]
      exact ⟨h3, by simp⟩
    · intro w hw'
      simp only [List.mem_append, List.mem_cons] at hw'
      rcases hw' with hw' | rfl | hw'
      · exact h4 w (by rw [hw]; simp [hw'])
      · simp
      · exact h4 w (by rw [hw]; simp [hw'])
  | quit hw _ => exact absurd rfl (h4 .closing (by rw [hw]; simp))
  | finished _ hq => rw [hq] at h3; simp at h3
  | count _ hq =>
    rw [hq] at h3
    simp only [List.mem_cons, not_or] at h3
    exact ⟨⟨h1, h2, h3.2, h4⟩, rfl⟩

/-- **C112 (finding).** Totals of 0 pass the checks (`train(total_examples=model.corpus_count)` after
`build_vocab_from_freq` without `corpus_count`), but then the thread that makes the jobs dies as soon as
the sentences do not fit into one job, and the call never returns, whatever the schedule. -/
theorem C112_zero_total_hangs (bw : Nat) (len : α → Nat) (words : Option Nat) (hw : words = none ∨ words = some 0)
    (data : List α) (hbig : bw < (data.map len).sum) (w : Nat) (h0 : 0 < w) {cj cp : Nat}
    {raw : List α → Nat} {n : Nat} {t : W2V.Epoch (List α)}
    (st : Chunk.Steps (W2V.EStep cj cp raw) (epochStart w (produce bw len (some 0) words data [] 0 [])) n t) :
    0 < t.unfinished := by
  have ht : (truthy (some 0) || truthy words) = false := by rcases hw with rfl | rfl <;> rfl
  have hp : (produce bw len (some 0) words data [] 0 []).2 = false := by
    rw [produce_fail bw len _ _ ht, decide_eq_false_iff_not]
    rintro (rfl | h)
    · simp at hbig
    · omega
  have key : ∀ {n : Nat} {t : W2V.Epoch (List α)},
      Chunk.Steps (W2V.EStep cj cp raw) (epochStart w (produce bw len (some 0) words data [] 0 [])) n t →
      NoEnd t ∧ t.unfinished = w := by
    intro n t st
    induction st with
    | refl =>
      refine ⟨⟨?_, ?_, ?_, ?_⟩, rfl⟩
      · simp [epochStart, hp]
      · simp [epochStart, W2V.epochInit]
      · simp [epochStart, W2V.epochInit]
      · intro x hx
        obtain rfl := List.eq_of_mem_replicate (show x ∈ List.replicate w W2V.Wk.idle from hx)
        simp
    | tail _ hst ih =>
      obtain ⟨h1, h2⟩ := noEnd_step ih.1 hst
      exact ⟨h1, by rw [h2, ih.2]⟩
  rw [(key st).2]
  exact h0

/-- **C112.** The checks accept those totals. -/
theorem C112_zero_total_accepted (m : Mdl) (kept : Nat) (hk : kept ≠ 0) (l : List α) (e : Nat) (he : 0 < e) :
    (train (buildVocabFromFreq kept none m) (some (.seq l)) none
      ⟨some (buildVocabFromFreq kept none m).corpusCount, none, some (e : Int), none, none, 0⟩).result = .ok () ∧
    (buildVocabFromFreq kept none m).corpusCount = 0 := by
  refine ⟨?_, rfl⟩
  rw [C112_train_iff]
  exact ⟨hk, hk, .inr (by simp), e, rfl, by omega, .inl ⟨rfl, _, rfl, by simp, by simp⟩⟩

/-- **C112.** With a total other than 0 the producer makes jobs of all the sentences, in order, and ends. -/
theorem C112_producer_ends (bw : Nat) (len : α → Nat) (ex words : Option Nat)
    (ht : (∃ n, ex = some n ∧ n ≠ 0) ∨ ∃ n, words = some n ∧ n ≠ 0) (data : List α) :
    (produce bw len ex words data [] 0 []).2 = true ∧
    (produce bw len ex words data [] 0 []).1.flatten = data := by
  have : (truthy ex || truthy words) = true := by
    rw [Bool.or_eq_true]
    rcases ht with h | h
    · exact .inl ((truthy_iff _).2 h)
    · exact .inr ((truthy_iff _).2 h)
  obtain ⟨h1, h2⟩ := produce_ok bw len ex words this data [] 0 []
  exact ⟨h1, by simpa using h2⟩

/-! ### `reset_from` -/

variable {τ : Type} [DecidableEq τ] {V : Type}

/-- **C112.** After `b.reset_from(a)` (two models), `b` has the vocabulary of `a`, a fresh vector for every
word of it, and `a`'s number of sentences; `a` is as it was. -/
theorem C112_reset_from (w w' : World τ V) (freshRow : Nat → V) (zero : V) (i j : Nat) (hij : i ≠ j)
    (mj : Ref V) (hj : w.models[j]? = some mj) (wv : W2V.WV τ) (hwv : w.wv mj = some wv) (hg : W2V.Good wv)
    (h : w.resetFrom freshRow zero i j = some w') :
    ∃ mi', w'.models[i]? = some mi' ∧ w'.models[j]? = some mj ∧ w'.wv mj = some wv ∧ w'.wv mi' = some wv ∧
      mi'.corpusCount = mj.corpusCount ∧ mi'.out = List.replicate wv.i2k.length zero ∧
      ∀ k ∈ wv.i2k, ∃ n, w'.vector mi' k = .ok (freshRow n) := by
  unfold World.resetFrom at h
  cases hi : w.models[i]? with
  | none => rw [hi] at h; simp at h
  | some mi =>
    rw [hi, hj] at h
    simp only [Option.bind_some, Option.map_eq_some_iff] at h
    obtain ⟨p, hp, rfl⟩ := h
    have hilt : i < w.models.length := (List.getElem?_eq_some_iff.1 hi).1
    unfold World.wv at hwv
    rw [hp] at hwv
    simp only [Option.bind_some, Option.map_eq_some_iff] at hwv
    obtain ⟨c, hc, rfl⟩ := hwv
    refine ⟨{ mi with
        idx := mj.idx, exp := mj.exp
        vectors := (List.range p.1.length).map freshRow
        out := List.replicate p.1.length zero
        corpusCount := mj.corpusCount }, List.getElem?_set_self hilt, ?_, ?_, ?_, rfl, rfl, ?_⟩
    · simp only [List.getElem?_set_ne hij]; exact hj
    · simp [World.wv, hp, hc]
    · simp [World.wv, hp, hc]
    · intro k hk
      obtain ⟨n, hn⟩ := List.getElem?_of_mem hk
      have hget := (hg.inverse k n).2 hn
      have hlt : n < p.1.length := (List.getElem?_eq_some_iff.1 hn).1
      refine ⟨n, ?_⟩
      unfold World.vector
      simp only [hp, Option.bind_some]
      simp only at hget
      simp only [hget, List.getElem?_map, List.getElem?_range hlt, Option.map_some]

/-- **C112 (finding).** The vocabulary is shared afterwards: when `a` then learns a new word
(`build_vocab(update=True)`), the word is in the vocabulary of `b` as well, which has no vector for it:
looking it up raises IndexError. -/
theorem C112_reset_shares (w w' w'' : World τ V) (freshRow : Nat → V) (zero : V) (i j : Nat) (hij : i ≠ j)
    (mj : Ref V) (hj : w.models[j]? = some mj) (wv : W2V.WV τ) (hwv : w.wv mj = some wv) (hg : W2V.Good wv)
    (h : w.resetFrom freshRow zero i j = some w') (cfg : W2V.Cfg τ) (raw : PyDict τ Nat) (hr : WF raw)
    (hu : w'.update freshRow zero j cfg raw = some w'') (k : τ) (hk : k ∉ wv.i2k)
    (hnew : (W2V.getCount (W2V.prepareUpdate cfg raw wv) k).isSome) :
    ∃ mi', w''.models[i]? = some mi' ∧ w''.vector mi' k = .error .index := by
  obtain ⟨mi', hi', hj', hwvj, hwvi, _, _, _⟩ :=
    C112_reset_from w w' freshRow zero i j hij mj hj wv hwv hg h
  obtain ⟨g1, _, g3⟩ := W2V.update_ok cfg hr hg
  have hidx : mi'.idx = mj.idx ∧ mi'.vectors.length = wv.i2k.length := by
    unfold World.resetFrom at h
    cases hi : w.models[i]? with
    | none => rw [hi] at h; simp at h
    | some mi =>
      rw [hi, hj] at h
      simp only [Option.bind_some, Option.map_eq_some_iff] at h
      obtain ⟨p, hp, rfl⟩ := h
      have hilt : i < w.models.length := (List.getElem?_eq_some_iff.1 hi).1
      simp only [List.getElem?_set_self hilt, Option.some.injEq] at hi'
      subst hi'
      unfold World.wv at hwv
      rw [hp] at hwv
      simp only [Option.bind_some, Option.map_eq_some_iff] at hwv
      obtain ⟨c, hc, rfl⟩ := hwv
      exact ⟨rfl, by simp⟩
  have hjlt : mj.idx < w'.idxs.length := by
    unfold World.wv at hwvj
    cases hx : w'.idxs[mj.idx]? with
    | none => rw [hx] at hwvj; simp at hwvj
    | some p => exact (List.getElem?_eq_some_iff.1 hx).1
  unfold World.update at hu
  rw [hj'] at hu
  simp only [Option.bind_some, hwvj] at hu
  split at hu
  · simp at hu
  · simp only [Option.map_eq_some_iff] at hu
    obtain ⟨vectors, _, rfl⟩ := hu
    refine ⟨mi', by simp only [List.getElem?_set_ne hij.symm]; exact hi', ?_⟩
    obtain ⟨n, hn⟩ := List.getElem?_of_mem ((W2V.getCount_isSome g1 k).1 hnew)
    have hget := (g1.inverse k n).2 hn
    have hge : wv.i2k.length ≤ n := by
      by_contra hlt
      have hlt : n < wv.i2k.length := Nat.lt_of_not_le hlt
      obtain ⟨s, hs⟩ := g3
      rw [← hs, List.getElem?_append_left hlt] at hn
      exact hk (List.mem_of_getElem? hn)
    unfold World.vector
    rw [hidx.1]
    simp only [List.getElem?_set_self hjlt, Option.bind_some, hget]
    rw [List.getElem?_eq_none (by omega)]

/-- **C112 (finding).** When `a` gets a new vocabulary (`build_vocab()`), `b` keeps its words, but the
counts it reads are those of `a`'s new words. -/
theorem C112_reset_counts (argsort : List Nat → List Nat) (w w' w'' : World τ V) (freshRow : Nat → V) (zero : V)
    (i j : Nat) (hij : i ≠ j) (mj : Ref V) (hj : w.models[j]? = some mj) (wv : W2V.WV τ)
    (hwv : w.wv mj = some wv) (hg : W2V.Good wv) (h : w.resetFrom freshRow zero i j = some w')
    (cfg : W2V.Cfg τ) (raw : PyDict τ Nat) (hu : w'.rebuild argsort j cfg raw = some w'') :
    ∃ mi', w''.models[i]? = some mi' ∧
      w''.wv mi' = some ⟨wv.i2k, wv.k2i, (W2V.prepareFresh argsort cfg raw wv).counts⟩ := by
  obtain ⟨mi', hi', hj', hwvj, hwvi, _, _, _⟩ :=
    C112_reset_from w w' freshRow zero i j hij mj hj wv hwv hg h
  have hidx : mi'.idx = mj.idx ∧ mi'.exp = mj.exp := by
    unfold World.resetFrom at h
    cases hi : w.models[i]? with
    | none => rw [hi] at h; simp at h
    | some mi =>
      rw [hi, hj] at h
      simp only [Option.bind_some, Option.map_eq_some_iff] at h
      obtain ⟨p, hp, rfl⟩ := h
      have hilt : i < w.models.length := (List.getElem?_eq_some_iff.1 hi).1
      simp only [List.getElem?_set_self hilt, Option.some.injEq] at hi'
      subst hi'
      exact ⟨rfl, rfl⟩
  unfold World.rebuild at hu
  rw [hj'] at hu
  simp only [Option.bind_some, hwvj, Option.map_some, Option.some.injEq] at hu
  subst hu
  refine ⟨mi', by simp only [List.getElem?_set_ne hij.symm]; exact hi', ?_⟩
  unfold World.wv at hwvj ⊢
  cases hx : w'.idxs[mj.idx]? with
  | none => rw [hx] at hwvj; simp at hwvj
  | some p =>
    rw [hx] at hwvj
    simp only [Option.bind_some, Option.map_eq_some_iff] at hwvj
    obtain ⟨c, hc, he⟩ := hwvj
    have hlt : mj.idx < w'.idxs.length := (List.getElem?_eq_some_iff.1 hx).1
    have hlt2 : mj.exp < w'.exps.length := (List.getElem?_eq_some_iff.1 hc).1
    simp only [hidx.1, hidx.2]
    rw [List.getElem?_append_left hlt, hx]
    simp only [Option.bind_some, List.getElem?_set_self hlt2, Option.map_some]
    rw [← he]

/-! ### Concrete cases -/

/-- A training of two epochs on two sentences with one callback. -/
example : (train (α := Nat) ⟨3, 3, 1, 0, some 5, 0, 2, 7⟩ (some (.seq [1, 2])) none
    ⟨some 2, none, some 2, none, none, 1⟩).result = .ok () :=
  (C112_train_iff _ _ _ _).2 ⟨by simp, by simp, .inr (by simp), 2, rfl, by omega,
    .inl ⟨rfl, _, rfl, by simp, by simp⟩⟩

/-- Two models: `a` (number 1) knows "x"; `b` (number 0) is reset from it, then `a` learns "y". -/
def exWorld : World Nat Nat :=
  ⟨[([], []), ([7], [(7, 0)])], [[], [4]], [⟨0, 0, [], [], 0, 0⟩, ⟨1, 1, [50], [0], 9, 30⟩]⟩

example : ∃ w' w'' m, exWorld.resetFrom (fun n => n + 100) 0 0 1 = some w' ∧
    w'.update (fun n => n + 100) 0 1 ⟨none, 1, none, false⟩ [(8, 3)] = some w'' ∧
    w''.models[0]? = some m ∧ w''.vector m 7 = .ok 100 ∧ w''.vector m 8 = .error .index := by
  refine ⟨_, _, _, rfl, rfl, rfl, ?_, ?_⟩ <;> decide

/-- Jobs of at most three words; the total is 0. -/
example : produce 3 (fun n => n) (some 0) none [2, 2] [] 0 [] = ([[2]], false) := by decide

end Verif.Life
