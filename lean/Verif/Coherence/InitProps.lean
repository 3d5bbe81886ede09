import Verif.Coherence.InitModel

/-!
# C155: constructing a `CoherenceModel`, and what it reads
-/

namespace Verif.Coherence.Init

variable {D T : Type}

/-! ### Specification -/

/-- What a stream has to give, the first time it is read. -/
def Src.all {α : Type} : Src α → List α
  | .named l => l
  | .seq l => l
  | .iter l => l

/-- It can be read again and again. -/
def Src.Repeatable {α : Type} (s : Src α) : Prop := ∀ l, s ≠ .iter l

/-- It is recognised as a corpus: by the name of its class, or by its first document. -/
def LooksLikeCorpus (ok : D → Bool) (s : Src D) : Prop :=
  (∃ l, s = .named l) ∨ ∃ d l, ok d = true ∧ (s = .seq (d :: l) ∨ s = .iter (d :: l))

/-- The mapping in use: the argument, or that of the topic model. -/
def mapping (a : Args D T) : Option Mapping := a.dictionary.or (a.model.map (·.id2word))

/-- The arguments that are accepted: a topic model, or topics together with a dictionary; a mapping that is not fake, or
any explicit one; and what the measure needs: a corpus or texts for `u_mass`, texts for the others, or word vectors for
`c_w2v`. -/
def Acceptable (ok : D → Bool) (a : Args D T) : Prop :=
  (a.model ≠ none ∧ a.topics = none ∧ (a.dictionary = none → ∀ m, a.model = some m → m.id2word ≠ .fake) ∨
    a.topics ≠ none ∧ a.dictionary ≠ none) ∧
  ((a.coherence = "u_mass" ∧ ((∃ c, a.corpus = some c ∧ LooksLikeCorpus ok c) ∨
      ∃ t, a.texts = some t ∧ (t.all = [] ∨ mapping a = some .dictionary))) ∨
    (a.coherence = "c_w2v" ∧ (a.keyedVectors = true ∨ a.texts ≠ none)) ∨
    ((a.coherence = "c_v" ∨ a.coherence = "c_uci" ∨ a.coherence = "c_npmi") ∧ a.texts ≠ none))

/-! ### Proofs -/

theorem read_all {α : Type} (s : Src α) : s.read.1 = s.all := by cases s <;> rfl

theorem isCorpus_iff (ok : D → Bool) (s : Src D) : (isCorpus ok s).1 = true ↔ LooksLikeCorpus ok s := by
  unfold LooksLikeCorpus
  rcases s with l | (_ | ⟨d, l⟩) | (_ | ⟨d, l⟩) <;> simp [isCorpus]

theorem window_ok (c : String) : slidingWindowSizes c = none ↔ c ∉ ["u_mass", "c_v", "c_uci", "c_npmi", "c_w2v"] := by
  unfold slidingWindowSizes
  by_cases h1 : c = "c_v"
  · simp [h1]
  by_cases h2 : c = "c_w2v"
  · simp [h2]
  by_cases h3 : c = "c_uci"
  · simp [h3]
  by_cases h4 : c = "c_npmi"
  · simp [h4]
  by_cases h5 : c = "u_mass"
  · simp [h5]
  simp [h1, h2, h3, h4, h5]

/-- The result of the checks that precede those of the measure. -/
theorem checkArgs_ok (a : Args D T) (d : Mapping) : checkArgs a = .ok d ↔
    ((a.model ≠ none ∧ a.topics = none ∧ (a.dictionary = none → ∀ m, a.model = some m → m.id2word ≠ .fake) ∨
      a.topics ≠ none ∧ a.dictionary ≠ none) ∧
    (a.keyedVectors = true ∨ a.texts ≠ none ∨ a.corpus ≠ none)) ∧ mapping a = some d := by
  unfold checkArgs mapping
  rcases hm : a.model with _ | m <;> rcases ht : a.topics with _ | t <;> rcases hd : a.dictionary with _ | d' <;>
    rcases hk : a.keyedVectors <;> rcases hx : a.texts with _ | x <;> rcases hc : a.corpus with _ | c <;>
    simp [Option.or] <;> (by_cases hf : m.id2word = .fake <;> simp [hf])

theorem checkArgs_err (a : Args D T) (e : Err) (h : checkArgs a = .error e) : e = .value := by
  unfold checkArgs at h
  rcases hm : a.model with _ | m <;> rcases ht : a.topics with _ | t <;> rcases hd : a.dictionary with _ | d' <;>
    rcases hk : a.keyedVectors <;> rcases hx : a.texts with _ | x <;> rcases hc : a.corpus with _ | c <;>
    simp [hm, ht, hd, hk, hx, hc] at h <;> first | exact h.symm | skip
  all_goals (by_cases hf : m.id2word = .fake <;> simp [hf] at h; exact h.symm)

/-- What the measure needs. -/
theorem sources_ok (ok : D → Bool) (f : T → D) (a : Args D T) (d : Mapping) :
    (∃ r, sources ok f a d = .ok r) ↔
      ((a.coherence = "u_mass" ∧ ((∃ c, a.corpus = some c ∧ LooksLikeCorpus ok c) ∨
        ∃ t, a.texts = some t ∧ (t.all = [] ∨ d = .dictionary))) ∨
      (a.coherence = "c_w2v" ∧ (a.keyedVectors = true ∨ a.texts ≠ none)) ∨
      ((a.coherence = "c_v" ∨ a.coherence = "c_uci" ∨ a.coherence = "c_npmi") ∧ a.texts ≠ none)) := by
  unfold sources
  by_cases h1 : a.coherence = "u_mass"
  · have : a.coherence ∈ booleanDocumentBased := by rw [h1]; decide
    rw [if_pos this]
    simp only [h1, true_and, peek]
    rcases hc : a.corpus with _ | c
    · rcases hx : a.texts with _ | t
      · simp
      · by_cases hd : t.read.1 = [] ∨ d = .dictionary
        · have hd' := hd
          rw [read_all] at hd'
          simp [hd, hd']
        · have hd' := hd
          rw [read_all] at hd'
          simp [hd, hd']
    · have hi := isCorpus_iff ok c
      by_cases hp : LooksLikeCorpus ok c
      · simp [hi.2 hp, hp]
      · have hf : (isCorpus ok c).1 = false := by
          rcases h : (isCorpus ok c).1
          · rfl
          · exact absurd (hi.1 h) hp
        simp only [hf, Bool.false_eq_true, if_false]
        rcases hx : a.texts with _ | t
        · simp [hp]
        · by_cases hd : t.read.1 = [] ∨ d = .dictionary
          · have hd' := hd
            rw [read_all] at hd'
            simp [hd, hd']
          · have hd' := hd
            rw [read_all] at hd'
            simp [hd, hd', hp]
  · have hb : a.coherence ∉ booleanDocumentBased := by simpa [booleanDocumentBased] using h1
    rw [if_neg hb]
    simp only [h1, false_and, false_or]
    by_cases h2 : a.coherence = "c_w2v"
    · rcases hk : a.keyedVectors <;> rcases hx : a.texts with _ | t <;> simp [h2, slidingWindowBased]
    · by_cases h3 : a.coherence = "c_v" ∨ a.coherence = "c_uci" ∨ a.coherence = "c_npmi"
      · rcases hx : a.texts with _ | t <;> rcases h3 with h3 | h3 | h3 <;> simp [h3, slidingWindowBased]
      · have : a.coherence ∉ slidingWindowBased := by
          simp only [slidingWindowBased, List.mem_cons, List.not_mem_nil, or_false]
          tauto
        simp [h2, h3, this]

theorem sources_err (ok : D → Bool) (f : T → D) (a : Args D T) (d : Mapping) (e : Err)
    (h : sources ok f a d = .error e) : e = .value ∨
      e = .attribute ∧ a.coherence = "u_mass" ∧ d ≠ .dictionary ∧ ∃ t, a.texts = some t ∧ t.all ≠ [] := by
  unfold sources at h
  split at h
  next hb =>
    have h1 : a.coherence = "u_mass" := by simpa [booleanDocumentBased] using hb
    split at h
    · cases h
    · split at h
      next t ht =>
        split at h
        · cases h
        next hn =>
          rw [read_all] at hn
          cases h
          exact Or.inr ⟨rfl, h1, fun hd => hn (Or.inr hd), t, ht, fun hl => hn (Or.inl hl)⟩
      · cases h
        exact Or.inl rfl
  · split at h
    · cases h
    · split at h
      · split at h
        · cases h
          exact Or.inl rfl
        · cases h
      · cases h
        exact Or.inl rfl

/-- What a successful construction consists of. -/
theorem construct_ok (ok : D → Bool) (f : T → D) (cpus : Int) (a : Args D T) (c : CModel D T)
    (h : construct ok f cpus a = .ok c) : ∃ d w r, checkArgs a = .ok d ∧ sources ok f a d = .ok r ∧
      (a.windowSize = some w ∧ c.windowSize = some w ∨
        a.windowSize = none ∧ slidingWindowSizes a.coherence = some c.windowSize) ∧
      c.coherence = a.coherence ∧ c.corpus = r.1 ∧ c.texts = r.2 ∧ c.keyedVectors = a.keyedVectors ∧ c.topn = a.topn ∧
      c.model = a.model ∧
      c.topics = (match a.topics with | some t => some t | none => a.model.map fun m => topicsOf m a.topn) ∧
      c.processes = if a.processes ≥ 1 then a.processes else max 1 (cpus - 1) := by
  unfold construct at h
  rcases hd : checkArgs a with e | d
  · rw [hd] at h; cases h
  · rw [hd] at h
    rcases hw : a.windowSize with _ | w
    · rw [hw] at h
      rcases hs : slidingWindowSizes a.coherence with _ | w
      · rw [hs] at h; cases h
      · rw [hs] at h
        rcases hr : sources ok f a d with e | r
        · simp only [bind, Except.bind, hr] at h; cases h
        · simp only [bind, Except.bind, hr] at h
          cases h
          exact ⟨d, 0, r, rfl, hr, Or.inr ⟨rfl, rfl⟩, rfl, rfl, rfl, rfl, rfl, rfl, rfl, rfl⟩
    · rw [hw] at h
      rcases hr : sources ok f a d with e | r
      · simp only [bind, Except.bind, hr] at h; cases h
      · simp only [bind, Except.bind, hr] at h
        cases h
        exact ⟨d, w, r, rfl, hr, Or.inl ⟨rfl, rfl⟩, rfl, rfl, rfl, rfl, rfl, rfl, rfl, rfl⟩

/-- **C155.** The constructor succeeds exactly for acceptable arguments. -/
theorem C155_accepts (ok : D → Bool) (f : T → D) (cpus : Int) (a : Args D T) :
    (∃ c, construct ok f cpus a = .ok c) ↔ Acceptable ok a := by
  constructor
  · rintro ⟨c, h⟩
    obtain ⟨d, w, r, h1, h2, _⟩ := construct_ok ok f cpus a c h
    obtain ⟨⟨h3, _⟩, h4⟩ := (checkArgs_ok a d).1 h1
    refine ⟨h3, ?_⟩
    have := (sources_ok ok f a d).1 ⟨r, h2⟩
    rw [h4]
    simpa using this
  · rintro ⟨h1, h2⟩
    have hmap : ∃ d, mapping a = some d := by
      unfold mapping
      rcases h1 with ⟨hm, _, _⟩ | ⟨_, hd⟩
      · rcases hd : a.dictionary with _ | d
        · obtain ⟨m, hm⟩ := Option.ne_none_iff_exists'.1 hm
          exact ⟨m.id2word, by rw [hm]; rfl⟩
        · exact ⟨d, rfl⟩
      · obtain ⟨d, hd⟩ := Option.ne_none_iff_exists'.1 hd
        exact ⟨d, by rw [hd]; rfl⟩
    obtain ⟨d, hd⟩ := hmap
    have hsrc : a.keyedVectors = true ∨ a.texts ≠ none ∨ a.corpus ≠ none := by
      rcases h2 with ⟨_, ⟨c, hc, _⟩ | ⟨t, ht, _⟩⟩ | ⟨_, hk | ht⟩ | ⟨_, ht⟩
      · exact Or.inr (Or.inr (by rw [hc]; simp))
      · exact Or.inr (Or.inl (by rw [ht]; simp))
      · exact Or.inl hk
      · exact Or.inr (Or.inl ht)
      · exact Or.inr (Or.inl ht)
    have hca := (checkArgs_ok a d).2 ⟨⟨h1, hsrc⟩, hd⟩
    rw [hd] at h2
    obtain ⟨r, hr⟩ := (sources_ok ok f a d).2 (by simpa using h2)
    have hknown : slidingWindowSizes a.coherence ≠ none := by
      intro hn
      rw [window_ok] at hn
      apply hn
      simp only [List.mem_cons, List.not_mem_nil, or_false]
      tauto
    obtain ⟨w, hw⟩ := Option.ne_none_iff_exists'.1 hknown
    unfold construct
    rw [hca]
    rcases hs : a.windowSize with _ | w'
    · simp only [hw, bind, Except.bind, hr]
      exact ⟨_, rfl⟩
    · simp only [bind, Except.bind, hr]
      exact ⟨_, rfl⟩

/-- **C155.** What is refused is refused with `ValueError`, with two exceptions: a measure that does not exist raises
`KeyError` unless a window size is given; and texts for `u_mass`, which are to be turned into documents, raise
`AttributeError` if the mapping is not a `Dictionary`. -/
theorem C155_errors (ok : D → Bool) (f : T → D) (cpus : Int) (a : Args D T) :
    (∀ e, construct ok f cpus a = .error e → e = .value ∨
      (e = .key ∧ a.windowSize = none ∧ a.coherence ∉ ["u_mass", "c_v", "c_uci", "c_npmi", "c_w2v"]) ∨
      (e = .attribute ∧ a.coherence = "u_mass" ∧ mapping a ≠ some .dictionary ∧ ∃ t, a.texts = some t ∧ t.all ≠ [])) ∧
    (a.topics ≠ none → a.dictionary ≠ none → a.texts ≠ none ∨ a.corpus ≠ none →
      a.coherence ∉ ["u_mass", "c_v", "c_uci", "c_npmi", "c_w2v"] →
      construct ok f cpus a = .error (if a.windowSize = none then .key else .value)) := by
  constructor
  · intro e h
    unfold construct at h
    rcases hd : checkArgs a with e' | d
    · rw [hd] at h
      cases h
      exact Or.inl (checkArgs_err a e hd)
    · rw [hd] at h
      have hm := ((checkArgs_ok a d).1 hd).2
      have fin : sources ok f a d = .error e → _ := fun he => sources_err ok f a d e he
      rcases hw : a.windowSize with _ | w
      · rw [hw] at h
        rcases hs : slidingWindowSizes a.coherence with _ | w
        · rw [hs] at h
          cases h
          exact Or.inr (Or.inl ⟨rfl, rfl, (window_ok _).1 hs⟩)
        · rw [hs] at h
          rcases hr : sources ok f a d with e' | r
          · simp only [bind, Except.bind, hr] at h
            cases h
            rcases fin hr with h | ⟨h1, h2, h3, h4⟩
            · exact Or.inl h
            · exact Or.inr (Or.inr ⟨h1, h2, by rw [hm]; simpa using h3, h4⟩)
          · simp only [bind, Except.bind, hr] at h; cases h
      · rw [hw] at h
        rcases hr : sources ok f a d with e' | r
        · simp only [bind, Except.bind, hr] at h
          cases h
          rcases fin hr with h | ⟨h1, h2, h3, h4⟩
          · exact Or.inl h
          · exact Or.inr (Or.inr ⟨h1, h2, by rw [hm]; simpa using h3, h4⟩)
        · simp only [bind, Except.bind, hr] at h; cases h
  · intro hta hda hsa hc
    obtain ⟨d, hmd⟩ : ∃ d, mapping a = some d := by
      obtain ⟨d, hd⟩ := Option.ne_none_iff_exists'.1 hda
      exact ⟨d, by unfold mapping; rw [hd]; rfl⟩
    have hd := (checkArgs_ok a d).2 ⟨⟨Or.inr ⟨hta, hda⟩, Or.inr hsa⟩, hmd⟩
    unfold construct
    rw [hd]
    have hs : sources ok f a d = .error .value := by
      unfold sources
      simp only [List.mem_cons, List.not_mem_nil, or_false, not_or] at hc
      obtain ⟨c1, c2, c3, c4, c5⟩ := hc
      simp [booleanDocumentBased, slidingWindowBased, c1, c2, c3, c4, c5]
    rcases hw : a.windowSize with _ | w
    · rw [(window_ok _).2 hc]
      rfl
    · simp only [bind, Except.bind, hs]
      rfl

/-- **C155.** The settings of a model that was constructed: the window is the one asked for, or 110, 10, 10 and 5 words
for `c_v`, `c_uci`, `c_npmi` and `c_w2v`; at least one process is used, the number asked for if that is positive and all
processors but one otherwise; topics given are taken, also if there is a topic model, and otherwise the topics are the
`topn` heaviest words of the model's. -/
theorem C155_settings (ok : D → Bool) (f : T → D) (cpus : Int) (a : Args D T) (c : CModel D T)
    (h : construct ok f cpus a = .ok c) :
    (∀ w, a.windowSize = some w → c.windowSize = some w) ∧
    (a.windowSize = none → (a.coherence = "c_v" → c.windowSize = some 110) ∧
      (a.coherence = "c_uci" ∨ a.coherence = "c_npmi" → c.windowSize = some 10) ∧
      (a.coherence = "c_w2v" → c.windowSize = some 5)) ∧
    1 ≤ c.processes ∧ (1 ≤ a.processes → c.processes = a.processes) ∧
    (a.processes < 1 → 2 ≤ cpus → c.processes + 1 = cpus) ∧
    c.topn = a.topn ∧ (∀ t, a.topics = some t → c.topics = some t) ∧
    (a.topics = none → ∃ m, a.model = some m ∧ c.topics = some (m.rank.map fun t => t.take a.topn)) := by
  obtain ⟨d, w, r, h1, h2, h3, h4, h5, h6, h7, h8, h9, h10, h11⟩ := construct_ok ok f cpus a c h
  refine ⟨?_, ?_, ?_, ?_, ?_, h8, ?_, ?_⟩
  · intro w' hw
    rcases h3 with ⟨h3, h3'⟩ | ⟨h3, _⟩
    · rw [h3', ← h3, hw]
    · rw [hw] at h3; cases h3
  · intro hw
    rcases h3 with ⟨h3, _⟩ | ⟨_, h3⟩
    · rw [hw] at h3; cases h3
    · refine ⟨?_, ?_, ?_⟩
      · intro hc
        rw [hc] at h3
        exact (Option.some.inj h3).symm
      · rintro (hc | hc) <;> rw [hc] at h3 <;> exact (Option.some.inj h3).symm
      · intro hc
        rw [hc] at h3
        exact (Option.some.inj h3).symm
  · rw [h11]
    split <;> omega
  · intro hp
    rw [h11, if_pos hp]
  · intro hp hc
    rw [h11, if_neg (by omega)]
    omega
  · intro t ht
    rw [h10, ht]
  · intro ht
    have := ((checkArgs_ok a d).1 h1).1.1
    rw [ht] at h10
    rcases this with ⟨hm, _⟩ | ⟨hm, _⟩
    · obtain ⟨m, hm⟩ := Option.ne_none_iff_exists'.1 hm
      refine ⟨m, hm, ?_⟩
      rw [h10, hm]
      rfl
    · exact absurd ht hm

theorem estimations_fix (c : CModel D T) (h : (estimate c).2 = c) (n : Nat) :
    estimations n c = List.replicate n (estimate c).1 := by
  induction n with
  | zero => rfl
  | succ n ih => rw [estimations, h, ih, List.replicate_succ]

/-- **C155.** Every estimation of a model goes through all documents or texts, if these can be read again and again: for
`u_mass` the documents of the corpus, or those made from the texts if there is no corpus (also if the texts are an
iterator), and for the other measures the texts. -/
theorem C155_sees_all (ok : D → Bool) (f : T → D) (cpus : Int) (a : Args D T) (c : CModel D T)
    (h : construct ok f cpus a = .ok c) (n : Nat) :
    (∀ s, a.coherence = "u_mass" → a.corpus = some s → LooksLikeCorpus ok s → s.Repeatable →
      estimations n c = List.replicate n (s.all, [])) ∧
    (∀ t, a.coherence = "u_mass" → (∀ s, a.corpus = some s → ¬ LooksLikeCorpus ok s) → a.texts = some t →
      estimations n c = List.replicate n (t.all.map f, [])) ∧
    (∀ t, a.coherence = "c_v" ∨ a.coherence = "c_uci" ∨ a.coherence = "c_npmi" ∨
        (a.coherence = "c_w2v" ∧ a.keyedVectors = false) → a.texts = some t → t.Repeatable →
      estimations n c = List.replicate n ([], t.all)) := by
  obtain ⟨d, w, r, h1, h2, h3, h4, h5, h6, h7, h8, h9, h10, h11⟩ := construct_ok ok f cpus a c h
  refine ⟨?_, ?_, ?_⟩
  · intro s hc hs hl hr
    have hb : a.coherence ∈ booleanDocumentBased := by rw [hc]; decide
    unfold sources at h2
    rw [if_pos hb, hs] at h2
    simp only [peek, (isCorpus_iff ok s).2 hl, if_true] at h2
    cases h2
    have hself : (isCorpus ok s).2 = s := by
      rcases s with l | (_ | ⟨d, l⟩) | l
      · rfl
      · rfl
      · rfl
      · exact absurd rfl (hr l)
    have hread : s.read.2 = s := by
      rcases s with l | l | l
      · rfl
      · rfl
      · exact absurd rfl (hr l)
    have hcc : c.corpus = some s := by rw [h5]; exact congrArg some hself
    have he : estimate c = ((s.all, []), c) := by
      unfold estimate
      rw [h4, if_pos hb, hcc]
      simp only [hread, read_all]
      congr 1
      rw [← hcc, ← h4]
    rw [estimations_fix c (by rw [he]), he]
  · intro t hc hn ht
    have hb : a.coherence ∈ booleanDocumentBased := by rw [hc]; decide
    unfold sources at h2
    rw [if_pos hb, ht] at h2
    have hp : (peek ok a.corpus).1 = false := by
      rcases hs : a.corpus with _ | s
      · rfl
      · rcases hx : (isCorpus ok s).1
        · exact hx
        · exact absurd ((isCorpus_iff ok s).1 hx) (hn s hs)
    simp only [hp, Bool.false_eq_true, if_false] at h2
    split at h2
    · cases h2
      have hcc : c.corpus = some (.seq (t.all.map f)) := by rw [h5, read_all]
      have he : estimate c = ((t.all.map f, []), c) := by
        unfold estimate
        rw [h4, if_pos hb, hcc]
        simp only [Src.read]
        congr 1
        rw [← hcc, ← h4]
      rw [estimations_fix c (by rw [he]), he]
    · cases h2
  · intro t hc ht hr
    have hnb : a.coherence ∉ booleanDocumentBased := by
      rcases hc with hc | hc | hc | ⟨hc, _⟩ <;> rw [hc] <;> decide
    have hnw : ¬ (a.coherence = "c_w2v" ∧ a.keyedVectors = true) := by
      rcases hc with hc | hc | hc | ⟨hc, hk⟩
      · rw [hc]; simp
      · rw [hc]; simp
      · rw [hc]; simp
      · rw [hk]; simp
    have hsw : a.coherence ∈ slidingWindowBased := by
      rcases hc with hc | hc | hc | ⟨hc, _⟩ <;> rw [hc] <;> decide
    unfold sources at h2
    rw [if_neg hnb, if_neg hnw, if_pos hsw, ht] at h2
    cases h2
    have hread : t.read.2 = t := by
      rcases t with l | l | l
      · rfl
      · rfl
      · exact absurd rfl (hr l)
    have he : estimate c = (([], t.all), c) := by
      unfold estimate
      rw [h4, h7, if_neg hnb, if_neg hnw, h6]
      simp only [hread, read_all]
      congr 1
      have h6s : c.texts = some t := h6
      rw [← h6s, ← h4, ← h7]
    rw [estimations_fix c (by rw [he]), he]

/-- **C155.** Of iterators, estimations see less.  A corpus that is an iterator has lost its first document by the time
the model is constructed, so the first estimation goes through the others, and all later ones through none; texts that
are an iterator are seen by the first estimation only. -/
theorem C155_iterators (ok : D → Bool) (f : T → D) (cpus : Int) (a : Args D T) (c : CModel D T)
    (h : construct ok f cpus a = .ok c) (n : Nat) :
    (∀ d l, a.coherence = "u_mass" → a.corpus = some (.iter (d :: l)) → ok d = true →
      estimations (n + 1) c = (l, []) :: List.replicate n ([], [])) ∧
    (∀ l, a.coherence = "c_v" ∨ a.coherence = "c_uci" ∨ a.coherence = "c_npmi" ∨
        (a.coherence = "c_w2v" ∧ a.keyedVectors = false) → a.texts = some (.iter l) →
      estimations (n + 1) c = ([], l) :: List.replicate n ([], [])) := by
  obtain ⟨d, w, r, h1, h2, h3, h4, h5, h6, h7, h8, h9, h10, h11⟩ := construct_ok ok f cpus a c h
  constructor
  · intro x l hc hs hok
    have hb : a.coherence ∈ booleanDocumentBased := by rw [hc]; decide
    unfold sources at h2
    rw [if_pos hb, hs] at h2
    simp only [peek, isCorpus, hok, if_true] at h2
    cases h2
    have e1 : (estimate c) = ((l, []), { c with corpus := some (.iter []) }) := by
      unfold estimate
      rw [h4, if_pos hb, h5]
      rfl
    have e2 : estimate ({ c with corpus := some (.iter []) } : CModel D T)
        = (([], []), { c with corpus := some (.iter []) }) := by
      unfold estimate
      simp only
      rw [h4, if_pos hb]
      rfl
    rw [estimations, e1]
    rw [estimations_fix _ (by rw [e2]), e2]
  · intro l hc ht
    have hnb : a.coherence ∉ booleanDocumentBased := by
      rcases hc with hc | hc | hc | ⟨hc, _⟩ <;> rw [hc] <;> decide
    have hnw : ¬ (a.coherence = "c_w2v" ∧ a.keyedVectors = true) := by
      rcases hc with hc | hc | hc | ⟨hc, hk⟩
      · rw [hc]; simp
      · rw [hc]; simp
      · rw [hc]; simp
      · rw [hk]; simp
    have hsw : a.coherence ∈ slidingWindowBased := by
      rcases hc with hc | hc | hc | ⟨hc, _⟩ <;> rw [hc] <;> decide
    unfold sources at h2
    rw [if_neg hnb, if_neg hnw, if_pos hsw, ht] at h2
    cases h2
    have e1 : (estimate c) = (([], l), { c with texts := some (.iter []) }) := by
      unfold estimate
      rw [h4, h7, if_neg hnb, if_neg hnw, h6]
      rfl
    have e2 : estimate ({ c with texts := some (.iter []) } : CModel D T)
        = (([], []), { c with texts := some (.iter []) }) := by
      unfold estimate
      simp only
      rw [h4, h7, if_neg hnb, if_neg hnw]
      rfl
    rw [estimations, e1]
    rw [estimations_fix _ (by rw [e2]), e2]

/-! ### Topics of a model -/

/-- The topics of a coherence model of a topic model over `v` words that is told, one after the other, to use certain
numbers of words. -/
def history (c : CModel D T) : List Nat → Option (CModel D T)
  | [] => some c
  | n :: ns => (setTopn c n).bind fun c => history c ns

theorem take_all_shown (m : TopicModel) (v k n : Nat) (hne : m.rank ≠ []) (hv : ∀ t ∈ m.rank, t.length = v)
    (hk : n ≤ k ∨ v ≤ k) :
    (if ((m.rank.map fun t => t.take k).headD []).length > n then
      (m.rank.map fun t => t.take k).map fun t => t.take n else m.rank.map fun t => t.take k)
      = m.rank.map fun t => t.take n := by
  rcases hr : m.rank with _ | ⟨t0, ts⟩
  · exact absurd hr hne
  · have h0 : t0.length = v := hv t0 (by rw [hr]; simp)
    have hhead : (((t0 :: ts).map fun t => t.take k).headD []).length = min k v := by simp [h0]
    rw [hhead]
    split
    next h =>
      rw [List.map_map]
      apply List.map_congr_left
      intro t ht
      simp only [Function.comp_apply, List.take_take]
      congr 1
      omega
    next h =>
      apply List.map_congr_left
      intro t ht
      have := hv t (by rw [hr]; exact ht)
      by_cases hkn : k ≤ n
      · rcases hk with hk | hk
        · have : n = k := by omega
          rw [this]
        · rw [List.take_of_length_le (by omega), List.take_of_length_le (by omega)]
      · rw [List.take_of_length_le (by omega), List.take_of_length_le (by omega)]

/-- **C155.** A coherence model of a topic model always shows as many of the heaviest words of each topic as it was last
told to, whatever it was told before: fewer, more, or more than there are words. -/
theorem C155_topn_of_model (ok : D → Bool) (f : T → D) (cpus : Int) (a : Args D T) (c : CModel D T)
    (h : construct ok f cpus a = .ok c) (m : TopicModel) (hm : a.model = some m) (ht : a.topics = none) (v : Nat)
    (hne : m.rank ≠ []) (hv : ∀ t ∈ m.rank, t.length = v) (ns : List Nat) :
    ∃ c', history c ns = some c' ∧
      shown c' = some (m.rank.map fun t => t.take ((a.topn :: ns).getLastD 0)) := by
  obtain ⟨d, w, r, h1, h2, h3, h4, h5, h6, h7, h8, h9, h10, h11⟩ := construct_ok ok f cpus a c h
  have inv : ∀ (ns : List Nat) (c : CModel D T) (k n : Nat), c.model = some m → c.topn = n →
      c.topics = some (m.rank.map fun t => t.take k) → (n ≤ k ∨ v ≤ k) →
      ∃ c', history c ns = some c' ∧ shown c' = some (m.rank.map fun t => t.take ((n :: ns).getLastD 0)) := by
    intro ns
    induction ns with
    | nil =>
      intro c k n q1 q2 q3 q4
      refine ⟨c, rfl, ?_⟩
      unfold shown
      rw [q3, q2]
      exact congrArg some (take_all_shown m v k n hne hv q4)
    | cons n' ns ih =>
      intro c k n q1 q2 q3 q4
      have hset : ∃ k', setTopn c n' = some { c with topn := n', topics := some (m.rank.map fun t => t.take k') } ∧
          (n' ≤ k' ∨ v ≤ k') := by
        unfold setTopn
        rw [q1]
        rcases hr : m.rank with _ | ⟨t0, ts⟩
        · exact absurd hr hne
        · have h0 : t0.length = v := hv t0 (by rw [hr]; simp)
          have hhead : ((c.topics.getD []).headD []).length = min k v := by
            rw [q3, hr]
            simp [h0]
          simp only [hhead]
          by_cases hx : min k v < n'
          · refine ⟨n', ?_, Or.inl (Nat.le_refl _)⟩
            simp only [hx, if_true, topicsOf, hr]
          · refine ⟨k, ?_, by omega⟩
            simp only [hx, if_false, q3, hr]
      obtain ⟨k', e1, e2⟩ := hset
      obtain ⟨c', g1, g2⟩ := ih { c with topn := n', topics := some (m.rank.map fun t => t.take k') } k' n' q1 rfl rfl e2
      refine ⟨c', ?_, ?_⟩
      · rw [history, e1]
        exact g1
      · rw [g2]
        rfl
  refine inv ns c a.topn a.topn (h9.trans hm) h8 ?_ (Or.inl (Nat.le_refl _))
  rw [h10, ht, hm]
  rfl

/-- **C155.** Topics that are given together with a topic model are replaced by those of the topic model as soon as more
words are asked for than the first of them has; without a topic model that is refused. -/
theorem C155_topics_replaced (ok : D → Bool) (f : T → D) (cpus : Int) (a : Args D T) (c : CModel D T)
    (h : construct ok f cpus a = .ok c) (t : List Nat) (ts : List (List Nat)) (ht : a.topics = some (t :: ts)) (n : Nat)
    (hn : t.length < n) :
    (∀ m, a.model = some m → ∃ c', setTopn c n = some c' ∧ c'.topics = some (m.rank.map fun r => r.take n)) ∧
    (a.model = none → setTopn c n = none) := by
  obtain ⟨d, w, r, h1, h2, h3, h4, h5, h6, h7, h8, h9, h10, h11⟩ := construct_ok ok f cpus a c h
  rw [ht] at h10
  simp only at h10
  constructor
  · intro m hm
    refine ⟨_, by unfold setTopn; rw [h9, hm], ?_⟩
    simp [h10, hn, topicsOf]
  · intro hm
    unfold setTopn
    rw [h9, hm, h10]
    simp [hn]

/-! ### Non-vacuity -/

/-- Documents of three words, an iterator of three documents, and topics with a dictionary. -/
def exArgs : Args (List (Nat × Nat)) (List Nat) :=
  { model := none, topics := some [[0, 1], [1, 2]], texts := none
    corpus := some (.iter [[(0, 1)], [(1, 1), (2, 1)], [(0, 2)]]), dictionary := some .dictionary, windowSize := none
    keyedVectors := false, coherence := "u_mass", topn := 20, processes := -1 }

example : ∃ c, construct (fun _ => true) (fun t => t.map fun w => (w, 1)) 4 exArgs = .ok c ∧
    estimations 3 c = [([[(1, 1), (2, 1)], [(0, 2)]], []), ([], []), ([], [])] ∧ c.processes = 3 :=
  ⟨_, rfl, rfl, rfl⟩

example : ∃ c, construct (fun _ => true) (fun t => t.map fun w => (w, 1)) 4
      { exArgs with model := some ⟨.dictionary, [[2, 0, 1], [1, 2, 0]]⟩, topics := none, topn := 2 } = .ok c ∧
    shown c = some [[2, 0], [1, 2]] ∧
    ∃ c', history c [1, 5, 2, 3] = some c' ∧ shown c' = some [[2, 0, 1], [1, 2, 0]] :=
  ⟨_, rfl, rfl, _, rfl, rfl⟩

example : construct (fun _ => true) (fun t => t.map fun w => (w, 1)) 4 { exArgs with coherence := "c_x" } = .error .key := rfl

end Verif.Coherence.Init
