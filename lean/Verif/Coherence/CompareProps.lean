import Verif.Coherence.CompareModel
import Verif.Coherence.StateProps
import Verif.Dictionary.Props
import Verif.Show.Props

/-!
# C137: comparing topic models by coherence
-/

namespace Verif.Coherence
open Verif PyDict Dictionary

variable {C K τ : Type} [Field K] [LinearOrder K] [IsStrictOrderedRing K] [LinearOrder τ]

/-! ## The reverse mapping of the dictionary -/

/-- the reverse mapping has not been built, or since it was built no word was added -/
def Fresh (d : Dct τ) : Prop := d.id2token = [] ∨ d.id2token.length = d.token2id.length

theorem fill_refresh (d : Dct τ) (h : Fresh d) : fillCache d = refresh d := by
  unfold fillCache refresh
  rcases h with h | h
  · by_cases h0 : d.token2id = []
    · have : revdict d.token2id = [] := by rw [h0]; rfl
      rw [if_pos h, if_neg (by simp [h, h0]), this, ← h]
    · rw [if_pos h, if_pos]
      rw [h]
      simp
      exact fun e => h0 (List.length_eq_zero_iff.1 e.symm)
  · by_cases h0 : d.id2token = []
    · have h1 : d.token2id = [] := by rw [h0] at h; simpa using h.symm
      have : revdict d.token2id = [] := by rw [h1]; rfl
      rw [if_pos h0, if_neg (by simp [h]), this, ← h0]
    · rw [if_neg h0, if_neg (by simp [h])]

theorem mapM_some_of {α β : Type} (f : α → Option β) (g : α → β) (l : List α) (h : ∀ x ∈ l, f x = some (g x)) :
    l.mapM f = some (l.map g) := by
  induction l with
  | nil => rfl
  | cons x l ih =>
    rw [List.mapM_cons, h x (by simp), ih fun y hy => h y (by simp [hy])]
    rfl

theorem mapM_eq_some {α β : Type} (f : α → Option β) (l : List α) (r : List β) (h : l.mapM f = some r) :
    l.map f = r.map some := by
  induction l generalizing r with
  | nil => simp only [List.mapM_nil] at h; cases h; rfl
  | cons x l ih =>
    rw [List.mapM_cons] at h
    cases hx : f x with
    | none => rw [hx] at h; cases h
    | some y =>
      rw [hx] at h
      cases hl : l.mapM f with
      | none => rw [hl] at h; cases h
      | some ys =>
        rw [hl] at h
        cases h
        rw [List.map_cons, hx, ih ys hl]
        rfl

/-- **C137.** The words looked up for ids are never wrong words, whatever was done to the dictionary before. -/
theorem C137_words_right {d : Dct τ} (h : Reachable d) (ids : List Nat) (ws : List τ) (hw : wordsOf d ids = some ws) :
    ws.map (idOf d) = ids.map some := by
  have hi := h.inv
  have hc : ∀ i w, get? (fillCache d).id2token i = some w → idOf d w = some i := by
    intro i w hg
    unfold fillCache at hg
    by_cases h0 : d.id2token = []
    · rw [if_pos h0] at hg
      have e : fillCache d = refresh d := fill_refresh d (Or.inl h0)
      have : get? (refresh d).id2token i = some w := by rw [← e]; unfold fillCache; rw [if_pos h0]; exact hg
      exact (getitem_spec hi i w).1 this
    · rw [if_neg h0] at hg
      exact get?_of_mem hi.wf (hi.cache _ (mem_of_get? hg))
  have e := mapM_eq_some _ _ _ hw
  have key : ∀ (ids : List Nat) (ws : List τ), ids.map (get? (fillCache d).id2token) = ws.map some → ws.map (idOf d) = ids.map some := by
    intro ids
    induction ids with
    | nil =>
      intro ws e
      cases ws with
      | nil => rfl
      | cons w ws => simp at e
    | cons i ids ih =>
      intro ws e
      cases ws with
      | nil => simp at e
      | cons w ws =>
        simp only [List.map_cons, List.cons.injEq] at e ⊢
        exact ⟨hc i w e.1, ih ws e.2⟩
  exact key ids ws e

/-- **C137.** As long as no word was added since the reverse mapping was built, every id in use has its word. -/
theorem C137_words_found {d : Dct τ} (h : Reachable d) (hf : Fresh d) (ids : List Nat) (hr : ∀ i ∈ ids, i < d.len) :
    ∃ ws, wordsOf d ids = some ws ∧ ws.map (idOf d) = ids.map some := by
  have hg : ∀ i, get? (fillCache d).id2token i = (getitem d i).2 := by
    intro i; rw [fill_refresh d hf]; rfl
  have hex : ∀ i ∈ ids, (getitem d i).2.isSome = true := fun i hi => getitem_isSome h.inv ((h.inv.mem_values i).2 (hr i hi))
  have : ∃ ws, wordsOf d ids = some ws := by
    clear hr
    unfold wordsOf
    induction ids with
    | nil => exact ⟨[], rfl⟩
    | cons i ids ih =>
      obtain ⟨ws, hws⟩ := ih fun j hj => hex j (by simp [hj])
      obtain ⟨w, hw⟩ := Option.isSome_iff_exists.1 (hex i (by simp))
      refine ⟨w :: ws, ?_⟩
      rw [List.mapM_cons, hg, hw, hws]
      rfl
  obtain ⟨ws, hws⟩ := this
  exact ⟨ws, hws, C137_words_right h ids ws hws⟩

/-- **C137 (finding).** Otherwise there are ids in use that raise `KeyError`; this happens after looking something up and
then adding a document with a new word. -/
theorem C137_stale {d : Dct τ} (h : Reachable d) (hf : ¬ Fresh d) : ∃ i, i < d.len ∧ wordsOf d [i] = none := by
  have hi := h.inv
  have h0 : d.id2token ≠ [] := fun e => hf (Or.inl e)
  have hl : d.id2token.length ≠ d.token2id.length := fun e => hf (Or.inr e)
  have hsub : keys d.id2token ⊆ List.range d.token2id.length := by
    intro j hj
    obtain ⟨q, hq, rfl⟩ := List.mem_map.mp hj
    exact List.mem_range.mpr ((hi.mem_values _).mp (mem_values_of_mem (hi.cache q hq)))
  have : ∃ i, i < d.token2id.length ∧ i ∉ keys d.id2token := by
    by_contra hne
    push Not at hne
    have hs2 : List.range d.token2id.length ⊆ keys d.id2token := fun j hj => hne j (List.mem_range.1 hj)
    have l1 := (List.subperm_of_subset hi.cacheWF hsub).length_le
    have l2 := (List.subperm_of_subset List.nodup_range hs2).length_le
    simp only [length_keys, List.length_range] at l1 l2
    omega
  obtain ⟨i, h1, h2⟩ := this
  refine ⟨i, h1, ?_⟩
  unfold wordsOf fillCache
  rw [if_neg h0, List.mapM_cons, (get?_eq_none_iff _ _).2 h2]
  rfl

example : Reachable demoLookups ∧ ¬ Fresh demoLookups := by
  refine ⟨.update _ (.lookup _ reachable_demo), ?_⟩
  rintro (h | h)
  · exact absurd h (by decide)
  · exact absurd h (by decide)

/-! ## Lemmas about lists of topics -/

theorem pair_mem (t : List Nat) (p : Nat × Nat) (hp : p ∈ sOnePreTopic t) : p.1 ∈ t ∧ p.2 ∈ t ∧ 2 ≤ t.length := by
  unfold sOnePreTopic at hp
  obtain ⟨q, hq, hm⟩ := List.mem_flatMap.1 hp
  obtain ⟨w, hw, rfl⟩ := List.mem_map.1 hm
  have h1 : q.1 ∈ t.drop 1 := by
    obtain ⟨a, b⟩ := q
    exact (List.mem_zipIdx hq).2.2 ▸ List.getElem_mem _
  have h2 : 2 ≤ t.length := by
    have := List.length_pos_of_mem h1
    rw [List.length_drop] at this
    omega
  exact ⟨List.mem_of_mem_drop h1, List.mem_of_mem_take hw, h2⟩

theorem mem_pair (t : List Nat) (h2 : 2 ≤ t.length) (w : Nat) (hw : w ∈ t) : w ∈ uniqueIds (sOnePre [t]) := by
  obtain ⟨a, b, rest, rfl⟩ : ∃ a b rest, t = a :: b :: rest := by
    match t, h2 with
    | a :: b :: rest, _ => exact ⟨a, b, rest, rfl⟩
  have hmem : ∀ x ∈ b :: rest, (x, a) ∈ sOnePreTopic (a :: b :: rest) := by
    intro x hx
    unfold sOnePreTopic
    obtain ⟨k, hk⟩ := List.mem_iff_getElem?.1 hx
    refine List.mem_flatMap.2 ⟨(x, k), ?_, List.mem_map.2 ⟨a, by simp [List.take_succ_cons], rfl⟩⟩
    exact List.mem_zipIdx_iff_getElem?.2 (by simpa using hk)
  rcases List.mem_cons.1 hw with rfl | hx
  · exact (mem_uniqueIds _ _ (by simp [sOnePre]) _ (hmem b (by simp))).2
  · exact (mem_uniqueIds _ _ (by simp [sOnePre]) _ (hmem w hx)).1

theorem unique_sub (ts : List (List Nat)) (w : Nat) (hw : w ∈ uniqueIds (sOnePre ts)) :
    ∃ t ∈ ts, w ∈ t ∧ 2 ≤ t.length := by
  unfold uniqueIds at hw
  rw [List.mem_dedup] at hw
  obtain ⟨p, hp, hm⟩ := List.mem_flatMap.1 hw
  obtain ⟨seg, hs, hp⟩ := List.mem_flatten.1 hp
  obtain ⟨t, ht, rfl⟩ := List.mem_map.1 hs
  obtain ⟨h1, h2, h3⟩ := pair_mem t p hp
  refine ⟨t, ht, ?_, h3⟩
  rcases List.mem_cons.1 hm with rfl | hm
  · exact h1
  · rcases List.mem_singleton.1 hm with rfl
    exact h2

/-! ## The statistics are computed once -/

theorem setTopics_keeps (s : CM) (a : List Nat × Index) (new : List (List Nat)) (ha : s.acc = some a)
    (hsub : ∀ w ∈ uniqueIds (sOnePre new), w ∈ a.1) : (setTopics s new).acc = some a := by
  unfold setTopics
  rw [ha]
  have : ((uniqueIds (sOnePre new)).any fun w => decide (w ∉ a.1)) = false := by
    rw [List.any_eq_false]
    intro w hw
    simpa using hsub w hw
  simp only [this]
  rw [Bool.and_false]
  rfl

theorem perTopic_keeps (eps : ℝ) (corpus : List (List (Nat × C))) (s : CM) (a : List Nat × Index) (ha : s.acc = some a) :
    (perTopic eps corpus s none).2.acc = some a := by
  unfold perTopic
  dsimp only
  rw [if_neg (by rw [ha]; simp), ha]
  exact ha

theorem atGrid_keeps (eps : ℝ) (corpus : List (List (Nat × C))) (a : List Nat × Index) (grid : List Nat) (s : CM)
    (r : List (List (Option ℝ)) × CM) (ha : s.acc = some a) (h : atGrid eps corpus grid s = some r) : r.2.acc = some a := by
  induction grid generalizing s r with
  | nil => cases h; exact ha
  | cons n grid ih =>
    rw [atGrid] at h
    cases hs : setTopn s n with
    | none => rw [hs] at h; cases h
    | some s1 =>
      rw [hs] at h
      obtain ⟨rfl, _⟩ := setTopn_some hs
      simp only [Option.bind_some] at h
      cases hg : atGrid eps corpus grid (perTopic eps corpus { s with topn := n } none).2 with
      | none => rw [hg] at h; cases h
      | some q =>
        rw [hg] at h
        cases h
        exact ih _ q (perTopic_keeps eps corpus { s with topn := n } a ha) hg

theorem compareLoop_keeps (eps : ℝ) (corpus : List (List (Nat × C))) (a : List Nat × Index) (grid : List Nat)
    (models : List (List (List Nat))) (s : CM) (r : List (List (List (Option ℝ))) × CM) (ha : s.acc = some a)
    (hsub : ∀ ts ∈ models, ∀ w ∈ uniqueIds (sOnePre ts), w ∈ a.1)
    (h : compareLoop eps corpus grid models s = some r) : r.2.acc = some a := by
  induction models generalizing s r with
  | nil => cases h; exact ha
  | cons ts models ih =>
    rw [compareLoop] at h
    cases hg : atGrid eps corpus grid (setTopics s ts) with
    | none => rw [hg] at h; cases h
    | some q =>
      rw [hg] at h
      simp only [Option.bind_some] at h
      cases hc : compareLoop eps corpus grid models q.2 with
      | none => rw [hc] at h; cases h
      | some q2 =>
        rw [hc] at h
        cases h
        exact ih q.2 q2 (atGrid_keeps eps corpus a grid _ q (setTopics_keeps s a ts ha (hsub ts (by simp))) hg)
          (fun u hu => hsub u (by simp [hu])) hc

/-- **C137.** Comparing lists of topics all of whose words the model already has statistics for does not go through the
corpus again: the statistics stay as they are. -/
theorem C137_once (eps : ℝ) (corpus : List (List (Nat × C))) (s s' : CM) (a : List Nat × Index) (ha : s.acc = some a)
    (models : List (List (List Nat))) (v : List (List (List (Option ℝ))))
    (hm : ∀ ts ∈ s.topics :: models, ∀ w ∈ uniqueIds (sOnePre ts), w ∈ a.1)
    (h : compareModelTopics eps corpus s models = some (v, s')) : s'.acc = s.acc := by
  unfold compareModelTopics at h
  cases hc : compareLoop eps corpus (topnGrid s.topn) models s with
  | none => rw [hc] at h; cases h
  | some r =>
    rw [hc] at h
    simp only [Option.bind_some] at h
    have h1 := compareLoop_keeps eps corpus a _ models s r ha (fun ts hts => hm ts (by simp [hts])) hc
    have h2 := setTopics_keeps r.2 a s.topics h1 (hm s.topics (by simp))
    cases hs : setTopn (setTopics r.2 s.topics) s.topn with
    | none => rw [hs] at h; cases h
    | some s1 =>
      rw [hs] at h
      obtain ⟨rfl, _⟩ := setTopn_some hs
      cases h
      rw [ha]
      exact h2

/-! ## Models -/

theorem argsort_cut (np : Show.Np K) (hok : np.Ok) (t : List K) (n : Nat) (hn : 1 ≤ n) (ht : 1 ≤ t.length) :
    Show.argsort np t (some ((min n t.length : Nat) : Int)) true = Show.argsort np t (some (n : Int)) true := by
  by_cases h : n ≤ t.length
  · rw [Nat.min_eq_left h]
  · rw [Nat.min_eq_right (by omega)]
    unfold Show.argsort
    simp only [Option.getD_some, if_true, List.length_map]
    rw [if_neg (by omega : ¬ ((t.length : Nat) : Int) ≤ 0), if_neg (by omega : ¬ ((n : Nat) : Int) ≤ 0), if_pos (by omega : ((t.length : Nat) : Int) ≤ ((t.length : Nat) : Int)),
      if_pos (by omega : ((t.length : Nat) : Int) ≤ ((n : Nat) : Int))]
    have hl : (np.argsort (t.map fun v => -v)).length = t.length := by
      rw [(hok.sort_perm _).length_eq, List.length_range, List.length_map]
    rw [List.take_of_length_le (by omega), List.take_of_length_le (by omega)]

theorem foldl_max_ge (l : List Nat) (b : Nat) : b ≤ l.foldl max b ∧ ∀ x ∈ l, x ≤ l.foldl max b := by
  induction l generalizing b with
  | nil => simp
  | cons y l ih =>
    have := ih (max b y)
    simp only [List.foldl_cons]
    constructor
    · omega
    · intro x hx
      rcases List.mem_cons.1 hx with rfl | hx
      · omega
      · exact this.2 x hx

theorem foldl_max_le (l : List Nat) (b m : Nat) (hb : b ≤ m) (h : ∀ x ∈ l, x ≤ m) : l.foldl max b ≤ m := by
  induction l generalizing b with
  | nil => exact hb
  | cons y l ih => exact ih (max b y) (Nat.max_le.2 ⟨hb, h y (by simp)⟩) fun x hx => h x (by simp [hx])

theorem fill_inv {d : Dct τ} (h : Reachable d) (hf : Fresh d) (i : Nat) (hi : i < d.len) :
    ∃ w, get? (fillCache d).id2token i = some w ∧ get? (fillCache d).token2id w = some i := by
  obtain ⟨ws, h1, h2⟩ := C137_words_found h hf [i] (by simpa using hi)
  have e := mapM_eq_some _ _ _ h1
  cases ws with
  | nil => simp at e
  | cons w ws =>
    cases ws with
    | cons _ _ => simp at e
    | nil =>
      simp only [List.map_cons, List.map_nil, List.cons.injEq, and_true] at e h2
      refine ⟨w, e, ?_⟩
      have : (fillCache d).token2id = d.token2id := by unfold fillCache; split <;> rfl
      rw [this]
      exact h2

theorem idIds_ok {d : Dct τ} (h : Reachable d) (hf : Fresh d) (ids : List Nat) (hi : ∀ i ∈ ids, i < d.len) :
    idIds (fillCache d) ids = some ids := by
  have := mapM_some_of (fun i => (get? (fillCache d).id2token i).bind (get? (fillCache d).token2id)) id ids (by
    intro i hm
    obtain ⟨w, h1, h2⟩ := fill_inv h hf i (hi i hm)
    simp [h1, h2])
  simpa [idIds] using this

theorem tokenIds_ok (d : Dct τ) (ws : List τ) (ids : List Nat) (h : ws.map (idOf d) = ids.map some) :
    tokenIds (fillCache d) ws = some ids := by
  have e : (fillCache d).token2id = d.token2id := by unfold fillCache; split <;> rfl
  unfold tokenIds
  rw [e]
  induction ws generalizing ids with
  | nil =>
    cases ids with
    | nil => rfl
    | cons => simp at h
  | cons w ws ih =>
    cases ids with
    | nil => simp at h
    | cons i ids =>
      simp only [List.map_cons, List.cons.injEq] at h
      rw [List.mapM_cons, ih ids h.2, show get? d.token2id w = some i from h.1]
      rfl

/-- **C137.** Comparing topic models over the same words: the model made by `for_models` has as its `topn` the number
asked for, or the number of words if that is smaller, and comparing the models gives for each of them, and for every
number of words in the grid, the coherences that are computed afresh for its heaviest words; the corpus is gone through
only once. -/
theorem C137_compare_models (eps : ℝ) (np : Show.Np K) (hok : np.Ok) (corpus : List (List (Nat × C))) {d : Dct τ}
    (h : Reachable d) (hf : Fresh d) (hd : 1 ≤ d.len) (models : List (List (List K))) (hne : models ≠ [])
    (htop : ∀ m ∈ models, m ≠ [] ∧ ∀ t ∈ m, t.length = d.len) (topn : Nat) (hn : 1 ≤ topn) :
    ∃ d' s s', forModels np corpus d models topn = some (d', s) ∧ s.topn = min topn d.len ∧
      compareModels eps np corpus d' s models
        = some (models.map fun m => (topnGrid s.topn).map fun n =>
            massPerTopic eps (shown (modelTopics np m topn) n) corpus, s') ∧
      s'.acc = s.acc := by
  -- the words of the topics
  have hwords : ∀ m ∈ models, ∃ ws, topWordLists np d m topn = some ws ∧
      ws.map (fun w => w.map (idOf d)) = (modelTopics np m topn).map (fun t => t.map some) := by
    intro m hm
    have hlen : ∀ t ∈ m, t.length = d.len := (htop m hm).2
    clear htop hm
    unfold topWordLists modelTopics
    induction m with
    | nil => exact ⟨[], rfl, rfl⟩
    | cons t m ih =>
      obtain ⟨ws, h1, h2⟩ := ih fun t ht => hlen t (by simp [ht])
      have htop := (Show.C115_argsort np hok t (topn : Int)).2
      obtain ⟨w, h3, h4⟩ := C137_words_found h hf (Show.argsort np t (some (topn : Int)) true)
        fun i hi => by have := htop.range i hi; rw [hlen t (by simp)] at this; exact this
      refine ⟨w :: ws, ?_, ?_⟩
      · rw [List.mapM_cons, h3, h1]; rfl
      · simp only [List.map_cons, h4, h2]
  have hlists : ∃ lists, (models.mapM fun m => topWordLists np d m topn) = some lists ∧
      lists.map (fun ws => ws.map fun w => w.map (idOf d)) = models.map fun m => (modelTopics np m topn).map fun t => t.map some := by
    clear htop hne
    induction models with
    | nil => exact ⟨[], rfl, rfl⟩
    | cons m models ih =>
      obtain ⟨ls, h1, h2⟩ := ih fun m hm => hwords m (by simp [hm])
      obtain ⟨ws, h3, h4⟩ := hwords m (by simp)
      refine ⟨ws :: ls, ?_, ?_⟩
      · rw [List.mapM_cons, h3, h1]; rfl
      · simp only [List.map_cons, h4, h2]
  obtain ⟨lists, hl1, hl2⟩ := hlists
  -- shapes
  have hlen : ∀ m ∈ models, ∀ t ∈ modelTopics np m topn, t.length = min topn d.len ∧ ∀ i ∈ t, i < d.len := by
    intro m hm t ht
    obtain ⟨x, hx, rfl⟩ := List.mem_map.1 ht
    have := (Show.C115_argsort np hok x (topn : Int)).2
    rw [← (htop m hm).2 x hx]
    exact ⟨by simpa using this.length, this.range⟩
  have hflat : lists.flatten.map (fun w => w.map (idOf d)) = ((models.map fun m => modelTopics np m topn).flatten).map fun t => t.map some := by
    have := congrArg List.flatten hl2
    rw [List.map_flatten, List.map_flatten, List.map_map]
    exact this
  have hflat2 : lists.flatten.flatten.map (idOf d) = ((models.map fun m => modelTopics np m topn).flatten.flatten).map some := by
    have := congrArg List.flatten hflat
    rw [List.map_flatten (f := idOf d) (L := lists.flatten), List.map_flatten (f := some)]
    exact this
  generalize hall : (models.map fun m => modelTopics np m topn).flatten.flatten = all at hflat2
  have hlens : lists.flatten.map List.length = ((models.map fun m => modelTopics np m topn).flatten).map List.length := by
    have := congrArg (fun l => l.map List.length) hflat
    simpa [Function.comp_def] using this
  have hmemflat : ∀ t ∈ (models.map fun m => modelTopics np m topn).flatten, t.length = min topn d.len ∧ ∀ i ∈ t, i < d.len := by
    intro t ht
    obtain ⟨ts, hts, ht⟩ := List.mem_flatten.1 ht
    obtain ⟨m, hm, rfl⟩ := List.mem_map.1 hts
    exact hlen m hm t ht
  have hex : ∃ t, t ∈ (models.map fun m => modelTopics np m topn).flatten := by
    obtain ⟨m, hm⟩ := List.exists_mem_of_ne_nil _ hne
    obtain ⟨x, hx⟩ := List.exists_mem_of_ne_nil _ (htop m hm).1
    exact ⟨Show.argsort np x (some (topn : Int)) true, List.mem_flatten.2 ⟨_, List.mem_map.2 ⟨m, hm, rfl⟩, List.mem_map.2 ⟨x, hx, rfl⟩⟩⟩
  have hlongest : (lists.flatten.map List.length).foldl max 0 = min topn d.len := by
    rw [hlens]
    apply Nat.le_antisymm
    · apply foldl_max_le
      · omega
      · intro x hx
        obtain ⟨t, ht, rfl⟩ := List.mem_map.1 hx
        exact (hmemflat t ht).1.le
    · obtain ⟨t, ht⟩ := hex
      rw [← (hmemflat t ht).1]
      exact (foldl_max_ge _ 0).2 _ (List.mem_map.2 ⟨t, ht, rfl⟩)
  have hallmem : ∀ t ∈ (models.map fun m => modelTopics np m topn).flatten, t.length ≤ all.length ∧ ∀ w ∈ t, w ∈ all := by
    intro t ht
    rw [← hall]
    exact ⟨(List.sublist_flatten_of_mem ht).length_le, fun w hw => List.mem_flatten.2 ⟨t, ht, hw⟩⟩
  have halllen : min topn d.len ≤ all.length := by
    obtain ⟨t, ht⟩ := hex
    rw [← (hmemflat t ht).1]
    exact (hallmem t ht).1
  have hnonempty : ¬ (lists = [] ∨ (lists.any fun l => l.isEmpty) = true) := by
    rintro (e | e)
    · rw [e] at hl2
      simp at hl2
      exact hne hl2
    · obtain ⟨l, hl, he⟩ := List.any_eq_true.1 e
      have : l = [] := by simpa using he
      subst this
      have hm : ([] : List (List (Option Nat))) ∈ lists.map (fun ws => ws.map fun w => w.map (idOf d)) := List.mem_map.2 ⟨[], hl, rfl⟩
      rw [hl2] at hm
      obtain ⟨m, hm, e2⟩ := List.mem_map.1 hm
      have : m = [] := by simpa [modelTopics] using e2
      exact (htop m hm).1 this
  have hshown : shown [all] all.length = [all] := by unfold shown; simp
  -- the model
  obtain ⟨hcov, hsome⟩ := estimate_covers corpus ⟨[all], all.length, none⟩ [all]
  generalize hs0 : estimate corpus ⟨[all], all.length, none⟩ (sOnePre [all]) = s0 at hcov hsome
  have ht0 : s0.topics = [all] := by rw [← hs0]; rfl
  have hset : setTopn s0 (min topn d.len) = some { s0 with topn := min topn d.len } := by
    unfold setTopn
    rw [ht0, if_neg]
    simp only [List.headD_cons]
    omega
  have hfor : forModels np corpus d models topn = some (fillCache d, { s0 with topn := min topn d.len }) := by
    unfold forModels forTopics
    rw [hl1]
    simp only [Option.bind_some]
    rw [if_neg hnonempty, tokenIds_ok d _ all hflat2]
    simp only [Option.bind_some, hshown, hs0, hlongest, Option.getD_some]
    rw [show min topn (min topn d.len) = min topn d.len by omega, hset]
    rfl
  generalize hs : ({ s0 with topn := min topn d.len } : CM) = s at hfor
  have hst : s.topn = min topn d.len := by rw [← hs]
  have hstopics : s.topics = [all] := by rw [← hs]; exact ht0
  have hsacc : s.acc = s0.acc := by rw [← hs]
  obtain ⟨a, ha⟩ := Option.isSome_iff_exists.1 hsome
  have ha' : s.acc = some a := by rw [hsacc]; exact ha
  have hrel : a.1 = uniqueIds (sOnePre [all]) := by
    rw [← hs0] at ha
    unfold estimate at ha
    dsimp only at ha
    cases hi : accumulateCorpus (uniqueIds (sOnePre [all])) (Index.init (uniqueIds (sOnePre [all]))) corpus with
    | none => rw [hi] at ha; cases ha
    | some i => rw [hi] at ha; cases ha; rfl
  -- the topics of the models, again
  have hcut : ∀ m ∈ models, modelTopics np m s.topn = modelTopics np m topn := by
    intro m hm
    unfold modelTopics
    apply List.map_congr_left
    intro t ht
    have hl := (htop m hm).2 t ht
    rw [hst, ← hl]
    exact argsort_cut np hok t topn hn (by omega)
  have hids : (models.mapM fun m => (modelTopics np m s.topn).mapM (idIds (fillCache d))) = some (models.map fun m => modelTopics np m topn) := by
    apply mapM_some_of
    intro m hm
    rw [hcut m hm]
    have := mapM_some_of (idIds (fillCache d)) id (modelTopics np m topn) fun t ht => idIds_ok h hf t (hlen m hm t ht).2
    simpa using this
  have hidall : (s.topics.mapM (idIds (fillCache d))) = some s.topics := by
    have := mapM_some_of (idIds (fillCache d)) id s.topics (by
      rw [hstopics]
      intro t ht
      rcases List.mem_singleton.1 ht with rfl
      refine idIds_ok h hf _ ?_
      intro i hi
      rw [← hall] at hi
      obtain ⟨t, ht, hi⟩ := List.mem_flatten.1 hi
      exact (hmemflat t ht).2 i hi)
    simpa using this
  have hcovs : Covers corpus s (shown s.topics s.topn) := by
    refine covers_mono corpus s [all] _ ?_ ?_
    · intro b hb
      rw [hsacc] at hb
      exact hcov b hb
    · intro t ht p hp
      rw [hstopics] at ht
      exact shown_sub_all [all] _ t ht p hp
  obtain ⟨s', hcmp, _, _, _⟩ := C81_compare eps corpus s (by omega) hcovs (by rw [hstopics, hst]; simpa using halllen)
    (models.map fun m => modelTopics np m topn) (by
      intro ts hts
      obtain ⟨m, hm, rfl⟩ := List.mem_map.1 hts
      rw [hst]
      cases hmt : modelTopics np m topn with
      | nil =>
        have : m = [] := by simpa [modelTopics] using hmt
        exact absurd this (htop m hm).1
      | cons t ts =>
        rw [List.headD_cons, (hlen m hm t (by rw [hmt]; simp)).1])
  refine ⟨fillCache d, s, s', hfor, hst, ?_, ?_⟩
  · unfold compareModels
    rw [hids]
    simp only [Option.bind_some]
    rw [hcmp]
    simp only [Option.bind_some]
    rw [hidall]
    simp [Function.comp_def]
  · refine C137_once eps corpus s s' a ha' _ _ ?_ hcmp
    intro ts hts w hw
    rw [hrel]
    obtain ⟨t, ht, hwt, h2⟩ := unique_sub ts w hw
    rcases List.mem_cons.1 hts with rfl | hts
    · rw [hstopics] at hw
      exact hw
    · have htm : t ∈ (models.map fun m => modelTopics np m topn).flatten := List.mem_flatten.2 ⟨ts, hts, ht⟩
      obtain ⟨h3, h4⟩ := hallmem t htm
      exact mem_pair all (by omega) w (h4 w hwt)

/-- two models over the five words of a dictionary with three documents -/
def exModels : List (List (List ℚ)) := [[[1, 2, 3, 4, 5], [5, 4, 3, 2, 1]], [[1, 1, 7, 8, 2]]]

example : ∃ d' s, forModels (Show.exNp : Show.Np ℚ) [[(0, 1), (1, 2)], [(0, 1), (2, 1), (3, 1)]] demo exModels 3 = some (d', s) ∧
    s.topn = 3 := by
  obtain ⟨d', s, _, h1, h2, _⟩ := C137_compare_models (C := Nat) 1 (Show.exNp : Show.Np ℚ) Show.exNp_ok
    [[(0, 1), (1, 2)], [(0, 1), (2, 1), (3, 1)]] reachable_demo (Or.inl (by decide)) (by decide) exModels (by simp [exModels])
    (by have : demo.len = 5 := by decide
        simp [exModels, this]) 3 (by decide)
  exact ⟨d', s, h1, h2⟩

/-- **C137.** Nothing to compare is refused: no list of topics, or a list without topics. -/
theorem C137_refused (corpus : List (List (Nat × C))) (d : Dct τ) (lists : List (List (List τ))) (topn : Option Nat)
    (h : lists = [] ∨ [] ∈ lists) : forTopics corpus d lists topn = none := by
  unfold forTopics
  rw [if_pos]
  rcases h with h | h
  · exact Or.inl h
  · exact Or.inr (List.any_eq_true.2 ⟨[], h, rfl⟩)

/-- **C137 (finding).** If the topics have different lengths, the model made by `for_topics` (without `topn`) raises when
it compares a list whose first topic is not one of the longest. -/
theorem C137_uneven (eps : ℝ) (corpus : List (List (Nat × C))) (d : Dct τ) (lists : List (List (List τ))) (s : CM)
    (hs : forTopics corpus d lists none = some s) (l : List (List τ)) (hl : l ∈ lists) (t : List τ) (ht : t ∈ l)
    (ts : List (List Nat)) (hshort : (ts.headD []).length < t.length) : compareModelTopics eps corpus s [ts] = none := by
  unfold forTopics at hs
  by_cases hc : lists = [] ∨ (lists.any fun l => l.isEmpty) = true
  · rw [if_pos hc] at hs; cases hs
  · rw [if_neg hc] at hs
    cases ha : tokenIds d lists.flatten.flatten with
    | none => rw [ha] at hs; cases hs
    | some all =>
      rw [ha] at hs
      simp only [Option.bind_some, Option.getD_none, Nat.min_self] at hs
      obtain ⟨rfl, _⟩ := setTopn_some hs
      have hge : t.length ≤ (lists.flatten.map List.length).foldl max 0 :=
        (foldl_max_ge _ 0).2 _ (List.mem_map.2 ⟨t, List.mem_flatten.2 ⟨l, hl, ht⟩, rfl⟩)
      exact C81_compare_raises eps corpus _ (by simp only; omega) ts [] (by simp only; omega)

end Verif.Coherence
