import Verif.Coherence.StateModel
import Verif.Coherence.MeasureProps

/-!
# C81: what a coherence model caches
-/

namespace Verif.Coherence

variable {C : Type}

/-! ## Specification -/

/-- The u_mass coherence of every topic, from the document frequencies. -/
noncomputable def massPerTopic (eps : ℝ) (topics : List (List Nat)) (corpus : List (List (Nat × C))) :
    List (Option ℝ) :=
  topics.map fun top =>
    mean ((pairsWhere top fun i j => decide (j < i)).map (massScore eps corpus))

/-- What a user does with a model. -/
inductive Use
  | topics (new : List (List Nat))
  | topn (n : Nat)
  | estimate
  | coherence

/-- The effect of a use; a `topn` that is refused changes nothing. -/
noncomputable def use (eps : ℝ) (corpus : List (List (Nat × C))) (s : CM) : Use → CM
  | .topics new => setTopics s new
  | .topn n => (setTopn s n).getD s
  | .estimate => Verif.Coherence.estimate corpus s (sOnePre (shown s.topics s.topn))
  | .coherence => (perTopic eps corpus s none).2

/-! ## Invariant -/

/-- The accumulator, if there is one, counts the corpus and has all words of the pairs of `ts`. -/
def Covers (corpus : List (List (Nat × C))) (s : CM) (ts : List (List Nat)) : Prop :=
  ∀ a, s.acc = some a → accumulateCorpus a.1 (Index.init a.1) corpus = some a.2 ∧
    ∀ t ∈ ts, ∀ p ∈ sOnePreTopic t, p.1 ∈ a.1 ∧ p.2 ∈ a.1

theorem mem_uniqueIds (segs : List (List (Nat × Nat))) (seg : List (Nat × Nat)) (hs : seg ∈ segs)
    (p : Nat × Nat) (hp : p ∈ seg) : p.1 ∈ uniqueIds segs ∧ p.2 ∈ uniqueIds segs := by
  unfold uniqueIds
  have hm : p ∈ segs.flatten := List.mem_flatten.2 ⟨seg, hs, hp⟩
  constructor <;> rw [List.mem_dedup, List.mem_flatMap]
  · exact ⟨p, hm, by simp⟩
  · exact ⟨p, hm, by simp⟩

theorem sOnePre_take (t : List Nat) (n : Nat) (p : Nat × Nat) (hp : p ∈ sOnePreTopic (t.take n)) :
    p ∈ sOnePreTopic t := by
  unfold sOnePreTopic at hp ⊢
  rw [List.mem_flatMap] at hp ⊢
  obtain ⟨q, hq, hr⟩ := hp
  refine ⟨q, ?_, ?_⟩
  · rw [List.mem_zipIdx_iff_getElem?] at hq ⊢
    rw [List.getElem?_drop, List.getElem?_take] at hq
    rw [List.getElem?_drop]
    split at hq
    · exact hq
    · exact absurd hq (by simp)
  · obtain ⟨w, hw, rfl⟩ := List.mem_map.1 hr
    refine List.mem_map.2 ⟨w, ?_, rfl⟩
    rw [List.take_take] at hw
    exact List.take_subset_take_left t (Nat.min_le_left _ _) hw

theorem sOnePre_take_take (t : List Nat) (n m : Nat) (h : n ≤ m) (p : Nat × Nat)
    (hp : p ∈ sOnePreTopic (t.take n)) : p ∈ sOnePreTopic (t.take m) := by
  apply sOnePre_take (t.take m) n
  rw [List.take_take, Nat.min_eq_left h]
  exact hp

theorem shown_subset (topics : List (List Nat)) (n m : Nat) (h : n ≤ m) (t : List Nat)
    (ht : t ∈ shown topics n) (p : Nat × Nat) (hp : p ∈ sOnePreTopic t) :
    ∃ t' ∈ shown topics m, p ∈ sOnePreTopic t' := by
  unfold shown at ht ⊢
  by_cases hm : (topics.headD []).length > m
  · rw [if_pos hm]
    rw [if_pos (by omega)] at ht
    obtain ⟨u, hu, rfl⟩ := List.mem_map.1 ht
    exact ⟨u.take m, List.mem_map.2 ⟨u, hu, rfl⟩, sOnePre_take_take u n m h p hp⟩
  · rw [if_neg hm]
    split at ht
    · obtain ⟨u, hu, rfl⟩ := List.mem_map.1 ht
      exact ⟨u, hu, sOnePre_take u n p hp⟩
    · exact ⟨t, ht, hp⟩

theorem shown_sub_all (topics : List (List Nat)) (n : Nat) (t : List Nat)
    (ht : t ∈ shown topics n) (p : Nat × Nat) (hp : p ∈ sOnePreTopic t) :
    ∃ t' ∈ topics, p ∈ sOnePreTopic t' := by
  unfold shown at ht
  split at ht
  · obtain ⟨u, hu, rfl⟩ := List.mem_map.1 ht
    exact ⟨u, hu, sOnePre_take u n p hp⟩
  · exact ⟨t, ht, hp⟩

theorem covers_mono (corpus : List (List (Nat × C))) (s : CM) (ts us : List (List Nat))
    (h : Covers corpus s ts)
    (hsub : ∀ t ∈ us, ∀ p ∈ sOnePreTopic t, ∃ t' ∈ ts, p ∈ sOnePreTopic t') : Covers corpus s us := by
  intro a ha
  obtain ⟨h1, h2⟩ := h a ha
  refine ⟨h1, ?_⟩
  intro t ht p hp
  obtain ⟨t', ht', hp'⟩ := hsub t ht p hp
  exact h2 t' ht' p hp'

theorem setTopics_covers (corpus : List (List (Nat × C))) (s : CM) (m : Nat)
    (h : Covers corpus s (shown s.topics m)) (new : List (List Nat)) :
    Covers corpus (setTopics s new) (shown (setTopics s new).topics m) := by
  intro a ha
  have hts : (setTopics s new).topics = new := rfl
  rw [hts]
  unfold setTopics at ha
  cases hacc : s.acc with
  | none =>
    rw [hacc] at ha
    simp at ha
  | some b =>
    rw [hacc] at ha
    dsimp only at ha
    split at ha
    · exact absurd ha (by simp)
    · rename_i hw
      rw [Option.some.injEq] at ha
      subst ha
      have ha' := h b hacc
      refine ⟨ha'.1, ?_⟩
      rw [Bool.and_eq_true, not_and] at hw
      by_cases hne : new = s.topics
      · rw [hne]
        exact ha'.2
      · have hw' := hw (by simpa using hne)
        simp only [List.any_eq_true, not_exists, not_and, decide_eq_true_eq, not_not] at hw'
        intro t ht p hp
        obtain ⟨t', ht', hp'⟩ := shown_sub_all new m t ht p hp
        obtain ⟨h1, h2⟩ := mem_uniqueIds (sOnePre new) (sOnePreTopic t')
          (List.mem_map.2 ⟨t', ht', rfl⟩) p hp'
        exact ⟨hw' _ h1, hw' _ h2⟩

theorem estimate_covers (corpus : List (List (Nat × C))) (s : CM) (ts : List (List Nat)) :
    Covers corpus (estimate corpus s (sOnePre ts)) ts ∧
      (estimate corpus s (sOnePre ts)).acc.isSome = true := by
  obtain ⟨i, hi, _⟩ := corpus_counts (uniqueIds (sOnePre ts)) corpus
  unfold estimate Covers
  dsimp only
  rw [hi, Option.map_some]
  refine ⟨?_, rfl⟩
  intro a ha
  rw [Option.some.injEq] at ha
  subst ha
  refine ⟨hi, ?_⟩
  intro t ht p hp
  exact mem_uniqueIds (sOnePre ts) (sOnePreTopic t) (List.mem_map.2 ⟨t, ht, rfl⟩) p hp

theorem perTopic_covers (eps : ℝ) (corpus : List (List (Nat × C))) (s : CM)
    (h : Covers corpus s (shown s.topics s.topn)) :
    (perTopic eps corpus s none).1 = massPerTopic eps (shown s.topics s.topn) corpus ∧
      Covers corpus (perTopic eps corpus s none).2 (shown s.topics s.topn) ∧
      (perTopic eps corpus s none).2.topics = s.topics ∧
      (perTopic eps corpus s none).2.topn = s.topn ∧
      (∀ us, Covers corpus s us → s.acc.isSome = true →
        Covers corpus (perTopic eps corpus s none).2 us) := by
  have value : ∀ (s' : CM) (a : List Nat × Index) (ts : List (List Nat)), s'.acc = some a →
      Covers corpus s' ts →
      logConditionalProbability eps (a.2.counts a.1) (sOnePre ts) = massPerTopic eps ts corpus := by
    intro s' a ts ha hc
    obtain ⟨h1, h2⟩ := hc a ha
    obtain ⟨i, hi, hn, ho, hco⟩ := corpus_counts a.1 corpus
    rw [h1, Option.some.injEq] at hi
    subst hi
    unfold logConditionalProbability massPerTopic sOnePre
    rw [List.map_map]
    apply List.map_congr_left
    intro t ht
    have hpairs : sOnePreTopic t = pairsWhere t fun i j => decide (j < i) := by
      have := C50_one_pre [t]
      simpa [sOnePre] using this
    rw [Function.comp_apply, ← hpairs]
    congr 1
    apply List.map_congr_left
    intro p hp
    obtain ⟨hp1, hp2⟩ := h2 t ht p hp
    unfold logConditional massScore Index.counts
    dsimp only
    rw [ho p.2 hp2, hco p.1 hp1 p.2 hp2]
    dsimp only
    rw [hn]
    by_cases h0 : docsWith corpus p.2 p.2 = 0
    · rw [if_pos h0, if_pos (Or.inr h0)]
    · rw [if_neg h0, if_neg]
      rintro (h | h)
      · have : docsWith corpus p.2 p.2 ≤ corpus.length := List.countP_le_length
        omega
      · exact h0 h
  unfold perTopic
  dsimp only [Option.getD_none]
  cases hacc : s.acc with
  | some a =>
    rw [if_neg (by simp), hacc]
    exact ⟨value s a _ hacc h, h, rfl, rfl, fun us hus _ => hus⟩
  | none =>
    rw [if_pos (by simp)]
    obtain ⟨h1, h2⟩ := estimate_covers corpus s (shown s.topics s.topn)
    obtain ⟨a, ha⟩ := Option.isSome_iff_exists.1 h2
    rw [ha]
    exact ⟨value _ a _ ha h1, h1, rfl, rfl, fun us _ hs => by simp at hs⟩

theorem setTopn_some {s s' : CM} {n : Nat} (h : setTopn s n = some s') :
    s' = { s with topn := n } ∧ n ≤ (s.topics.headD []).length := by
  unfold setTopn at h
  split at h
  · exact absurd h (by simp)
  · rw [Option.some.injEq] at h
    exact ⟨h.symm, by omega⟩

/-- **C81.** After any history of setting topics, lowering `topn`, estimating and asking for coherences,
the coherences are those computed afresh from the corpus for the topics shown. -/
theorem C81_history (eps : ℝ) (corpus : List (List (Nat × C))) (topics : List (List Nat)) (topn : Nat)
    (history : List Use)
    (hlow : ∀ (past : List Use) (n : Nat) (rest : List Use), history = past ++ Use.topn n :: rest →
      n ≤ (past.foldl (use eps corpus) { topics := topics, topn := topn, acc := none }).topn) :
    let s := history.foldl (use eps corpus) { topics := topics, topn := topn, acc := none }
    (perTopic eps corpus s none).1 = massPerTopic eps (shown s.topics s.topn) corpus := by
  have inv : ∀ history : List Use,
      (∀ (past : List Use) (n : Nat) (rest : List Use), history = past ++ Use.topn n :: rest →
        n ≤ (past.foldl (use eps corpus) { topics := topics, topn := topn, acc := none }).topn) →
      Covers corpus (history.foldl (use eps corpus) { topics := topics, topn := topn, acc := none })
        (shown (history.foldl (use eps corpus) { topics := topics, topn := topn, acc := none }).topics
          (history.foldl (use eps corpus) { topics := topics, topn := topn, acc := none }).topn) := by
    intro history
    induction history using List.reverseRecOn with
    | nil =>
      intro _ a ha
      simp at ha
    | append_singleton hs u ih =>
      intro hl
      have ih' := ih fun past n rest he => hl past n (rest ++ [u]) (by rw [he]; simp)
      rw [List.foldl_append, List.foldl_cons, List.foldl_nil]
      have hlast : ∀ n, u = Use.topn n → n ≤ (hs.foldl (use eps corpus)
          { topics := topics, topn := topn, acc := none }).topn := by
        rintro n rfl
        exact hl hs n [] rfl
      generalize hs.foldl (use eps corpus) { topics := topics, topn := topn, acc := none } = s at *
      cases u with
      | topics new => exact setTopics_covers corpus s s.topn ih' new
      | topn n =>
        have hu : use eps corpus s (Use.topn n) = (setTopn s n).getD s := rfl
        rw [hu]
        cases hset : setTopn s n with
        | none => exact ih'
        | some s' =>
          obtain ⟨rfl, _⟩ := setTopn_some hset
          rw [Option.getD_some]
          exact covers_mono corpus _ (shown s.topics s.topn) _ ih'
            fun t ht p hp => shown_subset s.topics n s.topn (hlast n rfl) t ht p hp
      | estimate =>
        unfold use
        exact (estimate_covers corpus s _).1
      | coherence =>
        unfold use
        obtain ⟨_, h2, h3, h4, _⟩ := perTopic_covers eps corpus s ih'
        rw [h3, h4]
        exact h2
  dsimp only
  exact (perTopic_covers eps corpus _ (inv history hlow)).1

/-! ## Comparing models -/

theorem atGrid_ok (eps : ℝ) (corpus : List (List (Nat × C))) (m : Nat) : ∀ (grid : List Nat) (s : CM),
    (∀ n ∈ grid, n ≤ m) → m ≤ (s.topics.headD []).length → Covers corpus s (shown s.topics m) →
    (s.acc.isSome = true ∨ grid.head? = some m) →
    ∃ s', atGrid eps corpus grid s
        = some (grid.map fun n => massPerTopic eps (shown s.topics n) corpus, s') ∧
      s'.topics = s.topics ∧ Covers corpus s' (shown s.topics m) ∧
      (grid ≠ [] → s'.acc.isSome = true) := by
  intro grid
  induction grid with
  | nil =>
    intro s _ _ h _
    exact ⟨s, rfl, rfl, h, fun h => absurd rfl h⟩
  | cons n grid ih =>
    intro s hle hlen hc hacc
    have hn : n ≤ m := hle n List.mem_cons_self
    have hset : setTopn s n = some { s with topn := n } := by
      unfold setTopn
      rw [if_neg (by omega)]
    have hcn : Covers corpus { s with topn := n } (shown s.topics n) :=
      covers_mono corpus { s with topn := n } (shown s.topics m) _ hc
        fun t ht p hp => shown_subset s.topics n m hn t ht p hp
    obtain ⟨h1, h2, h3, h4, h5⟩ := perTopic_covers eps corpus { s with topn := n } hcn
    have hcm : Covers corpus (perTopic eps corpus { s with topn := n } none).2 (shown s.topics m) := by
      by_cases hs : s.acc.isSome = true
      · exact h5 _ hc hs
      · rcases hacc with h | h
        · exact absurd h hs
        · simp only [List.head?_cons, Option.some.injEq] at h
          subst h
          exact h2
    have hsome : (perTopic eps corpus { s with topn := n } none).2.acc.isSome = true := by
      unfold perTopic
      dsimp only
      cases ha : s.acc with
      | some a => rw [if_neg (by simp)]; simp
      | none =>
        rw [if_pos (by simp)]
        obtain ⟨_, hs⟩ := estimate_covers corpus { s with topn := n, acc := none } (shown s.topics n)
        obtain ⟨a, hea⟩ := Option.isSome_iff_exists.1 hs
        simp only [Option.getD_none]
        rw [hea]
        simp [hea]
    obtain ⟨s', i1, i2, i3, i4⟩ := ih (perTopic eps corpus { s with topn := n } none).2
      (fun k hk => hle k (List.mem_cons_of_mem _ hk)) (by rw [h3]; exact hlen)
      (by rw [h3]; exact hcm) (Or.inl hsome)
    have i4' : s'.acc.isSome = true := by
      cases grid with
      | nil =>
        simp only [atGrid, Option.some.injEq, Prod.mk.injEq] at i1
        rw [← i1.2]
        exact hsome
      | cons => exact i4 (by simp)
    refine ⟨s', ?_, by rw [i2, h3], by rw [h3] at i3; exact i3, fun _ => i4'⟩
    rw [atGrid, hset, Option.bind_some]
    dsimp only
    rw [i1, h1, h3]
    rfl

theorem topnGrid_ok (topn : Nat) (h : 1 ≤ topn) :
    (topnGrid topn).head? = some topn ∧ ∀ n ∈ topnGrid topn, 1 ≤ n ∧ n ≤ topn := by
  unfold topnGrid
  dsimp only
  constructor
  · obtain ⟨k, hk⟩ : ∃ k, (topn - min (topn - 1) 4 + 4) / 5 = k + 1 :=
      ⟨(topn - min (topn - 1) 4 + 4) / 5 - 1, by omega⟩
    rw [hk, List.range_succ_eq_map]
    simp
  · intro n hn
    obtain ⟨i, hi, rfl⟩ := List.mem_map.1 hn
    rw [List.mem_range] at hi
    omega

/-- **C81.** `compare_model_topics` computes, for every list of topics and every `n` of the grid, the
coherences of these topics cut to `n` words, computed afresh, and leaves topics and `topn` as they
were; provided that the first topic of every list (and of the model itself) has `topn` words. -/
theorem C81_compare (eps : ℝ) (corpus : List (List (Nat × C))) (s : CM) (hn : 1 ≤ s.topn)
    (hc : Covers corpus s (shown s.topics s.topn)) (hs : s.topn ≤ (s.topics.headD []).length)
    (models : List (List (List Nat))) (hm : ∀ ts ∈ models, s.topn ≤ (ts.headD []).length) :
    ∃ s', compareModelTopics eps corpus s models
        = some (models.map fun ts => (topnGrid s.topn).map fun n =>
            massPerTopic eps (shown ts n) corpus, s') ∧
      s'.topics = s.topics ∧ s'.topn = s.topn ∧ Covers corpus s' (shown s'.topics s'.topn) := by
  obtain ⟨hg1, hg2⟩ := topnGrid_ok s.topn hn
  have loop : ∀ (models : List (List (List Nat))) (t : CM),
      (∀ ts ∈ models, s.topn ≤ (ts.headD []).length) → Covers corpus t (shown t.topics s.topn) →
      ∃ t', compareLoop eps corpus (topnGrid s.topn) models t
        = some (models.map fun ts => (topnGrid s.topn).map fun n =>
            massPerTopic eps (shown ts n) corpus, t') ∧
        Covers corpus t' (shown t'.topics s.topn) := by
    intro models
    induction models with
    | nil => intro t _ h; exact ⟨t, rfl, h⟩
    | cons ts models ih =>
      intro t hlen h
      have h1 := setTopics_covers corpus t s.topn h ts
      have hts : (setTopics t ts).topics = ts := rfl
      obtain ⟨t1, g1, g2, g3, _⟩ := atGrid_ok eps corpus s.topn (topnGrid s.topn) (setTopics t ts)
        (fun n hn => (hg2 n hn).2) (by rw [hts]; exact hlen ts List.mem_cons_self) h1 (Or.inr hg1)
      obtain ⟨t2, k1, k2⟩ := ih t1 (fun u hu => hlen u (List.mem_cons_of_mem _ hu))
        (by rw [g2]; exact g3)
      refine ⟨t2, ?_, k2⟩
      rw [compareLoop, g1, Option.bind_some]
      dsimp only
      rw [k1]
      rfl
  obtain ⟨t, h1, h2⟩ := loop models s hm hc
  have h3 := setTopics_covers corpus t s.topn h2 s.topics
  have hts : (setTopics t s.topics).topics = s.topics := rfl
  have hset : setTopn (setTopics t s.topics) s.topn
      = some { setTopics t s.topics with topn := s.topn } := by
    unfold setTopn
    rw [if_neg (by rw [hts]; omega)]
  refine ⟨{ setTopics t s.topics with topn := s.topn }, ?_, rfl, rfl, h3⟩
  unfold compareModelTopics
  rw [h1, Option.bind_some, hset]
  rfl

/-- **C81.** It raises as soon as the first topic of a list has fewer than `topn` words (with the default
`topn` of 20, for topics of less than 20 words). -/
theorem C81_compare_raises (eps : ℝ) (corpus : List (List (Nat × C))) (s : CM) (hn : 1 ≤ s.topn)
    (ts : List (List Nat)) (models : List (List (List Nat)))
    (hshort : (ts.headD []).length < s.topn) :
    compareModelTopics eps corpus s (ts :: models) = none := by
  obtain ⟨hg1, _⟩ := topnGrid_ok s.topn hn
  unfold compareModelTopics
  rw [compareLoop]
  cases hgrid : topnGrid s.topn with
  | nil => rw [hgrid] at hg1; simp at hg1
  | cons n ns =>
    rw [hgrid, List.head?_cons, Option.some.injEq] at hg1
    subst hg1
    have : setTopn (setTopics s ts) s.topn = none := by
      unfold setTopn
      have hts : (setTopics s ts).topics = ts := rfl
      rw [hts, if_pos hshort]
    rw [atGrid, this]
    rfl

/-! ## When `topn` is raised, and when segments are given -/

/-- Two documents: words 0 and 1, and words 0, 1 and 2. -/
def smallCorpus : List (List (Nat × Unit)) := [[(0, ()), (1, ())], [(0, ()), (1, ()), (2, ())]]

theorem stale (eps : ℝ) (h0 : 0 < eps) (h1 : eps * 2 < 1) (s : CM) (a : List Nat × Index)
    (hs : s.acc = some a) (h2 : 2 ∉ a.1) (ha : accumulateCorpus a.1 (Index.init a.1) smallCorpus = some a.2)
    (h3 : 0 ∈ a.1 ∧ 1 ∈ a.1) (ht : shown s.topics s.topn = [[0, 1, 2]]) :
    ∃ v w, (perTopic eps smallCorpus s none).1 = [some v] ∧
      massPerTopic eps [[0, 1, 2]] smallCorpus = [some w] ∧ w < v := by
  have hpairs : sOnePre [[0, 1, 2]] = [[((1 : Nat), (0 : Nat)), (2, 0), (2, 1)]] := by decide
  have hpairs' : pairsWhere [0, 1, 2] (fun i j => decide (j < i))
      = [((1 : Nat), (0 : Nat)), (2, 0), (2, 1)] := by
    have := C50_one_pre [[0, 1, 2]]
    rw [hpairs] at this
    simpa using this.symm
  obtain ⟨i, hi, hn, ho, hco⟩ := corpus_counts a.1 smallCorpus
  rw [ha, Option.some.injEq] at hi
  subst hi
  have hno : ∀ b, a.2.coOccurrences a.1 2 b = none := by
    intro b
    simp [Index.coOccurrences, contiguous, h2]
  have h10 : logConditional eps (a.2.counts a.1) (1, 0) = massScore eps smallCorpus (1, 0) := by
    unfold logConditional massScore Index.counts
    dsimp only
    rw [ho 0 h3.1, hco 1 h3.2 0 h3.1]
    dsimp only
    rw [hn]
    have hd : docsWith smallCorpus 0 0 = 2 := by decide
    rw [hd, if_neg (by decide), if_neg (by decide)]
  have h2b : ∀ b, logConditional eps (a.2.counts a.1) (2, b) = 0 := by
    intro b
    unfold logConditional Index.counts
    dsimp only
    rw [hno b]
    cases a.2.occurrences a.1 b <;> rfl
  have hlen : eps * (smallCorpus.length : ℝ) < 1 := by
    have : smallCorpus.length = 2 := rfl
    rw [this]
    exact_mod_cast h1
  have s20 : massScore eps smallCorpus (2, 0) < 0 :=
    (C79_u_mass_sign eps h0 smallCorpus hlen 2 0).1.2 (by decide)
  have s21 : massScore eps smallCorpus (2, 1) < 0 :=
    (C79_u_mass_sign eps h0 smallCorpus hlen 2 1).1.2 (by decide)
  refine ⟨(massScore eps smallCorpus (1, 0) + (0 + (0 + 0))) / 3,
    (massScore eps smallCorpus (1, 0) + (massScore eps smallCorpus (2, 0)
      + (massScore eps smallCorpus (2, 1) + 0))) / 3, ?_, ?_, ?_⟩
  · unfold perTopic
    dsimp only [Option.getD_none]
    rw [hs, if_neg (by simp), hs, ht, hpairs]
    dsimp only
    unfold logConditionalProbability mean
    simp only [List.map_cons, List.map_nil, h10, h2b]
    simp
  · unfold massPerTopic mean
    rw [List.map_cons, List.map_nil, hpairs']
    simp
  · apply div_lt_div_of_pos_right _ (by norm_num)
    linarith

/-- **C81.** Raising `topn` keeps an accumulator without the new words: the pairs with them silently score
0, which is too high. -/
theorem C81_topn_raised (eps : ℝ) (h0 : 0 < eps) (h1 : eps * 2 < 1) :
    let s0 : CM := { topics := [[0, 1, 2]], topn := 2, acc := none }
    let s := [Use.coherence, Use.topn 3].foldl (use eps smallCorpus) s0
    shown s.topics s.topn = [[0, 1, 2]] ∧
      ∃ v w, (perTopic eps smallCorpus s none).1 = [some v] ∧
        massPerTopic eps [[0, 1, 2]] smallCorpus = [some w] ∧ w < v := by
  have hacc : ∃ i, accumulateCorpus [1, 0] (Index.init [1, 0]) smallCorpus = some i := by
    obtain ⟨i, hi, _⟩ := corpus_counts [1, 0] smallCorpus
    exact ⟨i, hi⟩
  obtain ⟨i, hi⟩ := hacc
  have hrel : uniqueIds (sOnePre (shown [[0, 1, 2]] 2)) = [1, 0] := by decide
  have hs : [Use.coherence, Use.topn 3].foldl (use eps smallCorpus)
      { topics := [[0, 1, 2]], topn := 2, acc := none }
      = { topics := [[0, 1, 2]], topn := 3, acc := some ([1, 0], i) } := by
    simp only [List.foldl_cons, List.foldl_nil, use, perTopic, Option.getD_none, Option.isNone_none,
      if_true, estimate, hrel, hi, Option.map_some]
    rfl
  dsimp only
  rw [hs]
  refine ⟨rfl, ?_⟩
  exact stale eps h0 h1 _ ([1, 0], i) rfl (by simp) hi (by simp) rfl

/-- **C81.** Asking first for the coherence of given segments leaves an accumulator with their words
only, which is then used for the topics of the model. -/
theorem C81_segments_given (eps : ℝ) (h0 : 0 < eps) (h1 : eps * 2 < 1) :
    let s0 : CM := { topics := [[0, 1, 2]], topn := 3, acc := none }
    let s := (perTopic eps smallCorpus s0 (some [[(1, 0)]])).2
    ∃ v w, (perTopic eps smallCorpus s none).1 = [some v] ∧
      massPerTopic eps [[0, 1, 2]] smallCorpus = [some w] ∧ w < v := by
  obtain ⟨i, hi, _⟩ := corpus_counts [1, 0] smallCorpus
  have hrel : uniqueIds [[((1 : Nat), (0 : Nat))]] = [1, 0] := by decide
  have hs : (perTopic eps smallCorpus { topics := [[0, 1, 2]], topn := 3, acc := none }
      (some [[(1, 0)]])).2 = { topics := [[0, 1, 2]], topn := 3, acc := some ([1, 0], i) } := by
    simp only [perTopic, Option.getD_some, Option.isNone_none, if_true, estimate, hrel, hi,
      Option.map_some]
  dsimp only
  rw [hs]
  exact stale eps h0 h1 _ ([1, 0], i) rfl (by simp) hi (by simp) rfl

/-! ## Words and ids -/

/-- **C81.** Topics may be given as words the dictionary has.  Given as ids, which is what
`compare_models` and the restoring of the topics after a comparison do, they raise `KeyError` unless the
reverse mapping of the dictionary has been filled in by something else before. -/
theorem C81_ids (token2id : PyDict String Nat) (id2token : PyDict Nat String) :
    (∀ ws : List String, (∀ w ∈ ws, (token2id.get? w).isSome = true) →
      ensureIds token2id id2token (ws.map Sum.inl) = ws.mapM token2id.get?) ∧
    (∀ ids : List Nat, (∀ i ∈ ids, (id2token.get? i).bind token2id.get? = some i) →
      ensureIds token2id id2token (ids.map Sum.inr) = some ids) ∧
    ∀ ids : List Nat, ids ≠ [] → ensureIds token2id [] (ids.map Sum.inr) = none := by
  refine ⟨?_, ?_, ?_⟩
  · intro ws hws
    unfold ensureIds
    have he : (ws.map Sum.inl).mapM (byToken token2id) = ws.mapM token2id.get? := by
      rw [List.mapM_map]
      rfl
    have : ∃ l, ws.mapM token2id.get? = some l := by
      clear he
      induction ws with
      | nil => exact ⟨[], rfl⟩
      | cons w ws ih =>
        obtain ⟨l, hl⟩ := ih fun w hw => hws w (List.mem_cons_of_mem _ hw)
        obtain ⟨i, hi⟩ := Option.isSome_iff_exists.1 (hws w List.mem_cons_self)
        exact ⟨i :: l, by rw [List.mapM_cons, hi, hl]; rfl⟩
    obtain ⟨l, hl⟩ := this
    rw [he, hl]
  · intro ids hids
    have h2 : (ids.map Sum.inr).mapM (byId token2id id2token) = some ids := by
      induction ids with
      | nil => rfl
      | cons i ids ih =>
        rw [List.map_cons, List.mapM_cons, ih fun j hj => hids j (List.mem_cons_of_mem _ hj)]
        simp [byId, hids i List.mem_cons_self]
    unfold ensureIds
    cases ids with
    | nil => rfl
    | cons i ids =>
      rw [h2]
      simp [List.mapM_cons, byToken]
  · intro ids hne
    unfold ensureIds
    cases ids with
    | nil => exact absurd rfl hne
    | cons i ids => simp [List.mapM_cons, byToken, byId, PyDict.get?]

example : topnGrid 20 = [20, 15, 10, 5] ∧ topnGrid 3 = [3] := by decide

end Verif.Coherence
