import Verif.Coherence.AccumModel
import Mathlib.Data.Finset.Range

/-!
# C51: boolean document counts are exact; C67: the windowed inverted index
-/

namespace Verif.Coherence

variable {W : Type} [DecidableEq W]

/-! ## Specification -/

/-- Does the bag-of-words document mention `w`? -/
def mentions {C : Type} (w : W) (doc : List (W × C)) : Bool := doc.any fun p => decide (p.1 = w)

/-- The windows a text is cut into: all stretches of `k` consecutive words, or the whole text when it
is shorter than `k`. -/
def slidingWindows {α : Type} (k : Nat) (text : List α) : List (List α) :=
  if text.length < k then [text]
  else (List.range (text.length + 1 - k)).map fun i => (text.drop i).take k

/-! ## Lemmas about the inverted index -/

theorem contiguous_mem {rel : List W} {w : W} (h : w ∈ rel) :
    contiguous rel w = some (rel.idxOf w) := by simp [contiguous, h]

theorem addAll_spec (d : Nat) (is : List Nat) (sets : List (Finset Nat))
    (h : ∀ i ∈ is, i < sets.length) :
    ∃ sets', addAll d is sets = some sets' ∧ sets'.length = sets.length ∧
      ∀ i : Nat, sets'[i]? = (sets[i]?).map fun s => if i ∈ is then insert d s else s := by
  induction is generalizing sets with
  | nil => exact ⟨sets, rfl, rfl, fun i => by simp⟩
  | cons a is ih =>
    have ha : a < sets.length := h a (by simp)
    obtain ⟨sets', h1, h2, h3⟩ := ih (sets.modify a fun s => insert d s)
      (by intro i hi; simpa using h i (by simp [hi]))
    refine ⟨sets', ?_, ?_, ?_⟩
    · simp [addAll, addTo, ha, h1]
    · simpa using h2
    · intro i
      rw [h3 i, List.getElem?_modify]
      by_cases hai : a = i
      · subst hai
        cases hs : sets[a]? with
        | none => simp
        | some s => by_cases hm : a ∈ is <;> simp [hm]
      · have : ¬ i = a := fun e => hai e.symm
        cases hs : sets[i]? with
        | none => simp [hai]
        | some s => simp [hai, this]

theorem addAll_none (d : Nat) (is : List Nat) (sets : List (Finset Nat))
    (h : ∃ i ∈ is, sets.length ≤ i) : addAll d is sets = none := by
  induction is generalizing sets with
  | nil => simp at h
  | cons a is ih =>
    by_cases ha : a < sets.length
    · have : ∃ i ∈ is, sets.length ≤ i := by
        obtain ⟨i, hi, hl⟩ := h
        rcases List.mem_cons.1 hi with rfl | hi
        · omega
        · exact ⟨i, hi, hl⟩
      simp only [addAll, addTo, ha, if_true]
      exact ih _ (by simpa using this)
    · simp [addAll, addTo, ha]

/-- The index represents a list of past "documents", each given by the contiguous ids it
contains. -/
def Represents (v : Nat) (s : Index) (past : List (List Nat)) : Prop :=
  s.sets.length = v ∧ s.numDocs = past.length ∧
    ∀ (i : Nat) (hi : i < v), s.sets[i]? =
      some ((Finset.range past.length).filter fun d => i ∈ past.getD d [])

theorem represents_init (rel : List W) : Represents rel.length (Index.init rel) [] := by
  refine ⟨by simp [Index.init], rfl, ?_⟩
  intro i hi
  simp [Index.init, hi]

theorem represents_add {v : Nat} {s : Index} {past : List (List Nat)} (h : Represents v s past)
    (is : List Nat) (his : ∀ i ∈ is, i < v) :
    ∃ sets, addAll s.numDocs is s.sets = some sets ∧
      Represents v { sets := sets, numDocs := s.numDocs + 1 } (past ++ [is]) := by
  obtain ⟨h1, h2, h3⟩ := h
  obtain ⟨sets, ha, hl, hs⟩ := addAll_spec s.numDocs is s.sets (by rw [h1]; exact his)
  refine ⟨sets, ha, by rw [← h1, ← hl], by simp [h2], ?_⟩
  intro i hi
  rw [hs i, h3 i hi]
  simp only [Option.map_some, Option.some.injEq, List.length_append, List.length_singleton]
  rw [Finset.range_add_one, Finset.filter_insert]
  have hlast : (past ++ [is]).getD past.length [] = is := by simp
  have hold : (Finset.range past.length).filter (fun d => i ∈ (past ++ [is]).getD d [])
      = (Finset.range past.length).filter (fun d => i ∈ past.getD d []) := by
    apply Finset.filter_congr
    intro d hd
    have hd' := Finset.mem_range.1 hd
    simp [List.getD, List.getElem?_append_left hd']
  rw [hlast, hold, h2]

theorem card_filter_getD {β : Type} (l : List β) (d : β) (p : β → Bool) :
    ((Finset.range l.length).filter fun i => p (l.getD i d) = true).card = l.countP p := by
  induction l using List.reverseRecOn with
  | nil => rfl
  | append_singleton l a ih =>
    rw [List.length_append, List.length_singleton, Finset.range_add_one, Finset.filter_insert]
    have hlast : (l ++ [a]).getD l.length d = a := by simp
    have hold : (Finset.range l.length).filter (fun i => p ((l ++ [a]).getD i d) = true)
        = (Finset.range l.length).filter (fun i => p (l.getD i d) = true) := by
      apply Finset.filter_congr
      intro i hi
      have hi' := Finset.mem_range.1 hi
      simp [List.getD, List.getElem?_append_left hi']
    rw [hlast, hold, List.countP_append]
    by_cases h : p a = true
    · rw [if_pos h, Finset.card_insert_of_notMem (by simp), ih]
      simp [h]
    · rw [if_neg h, ih]
      simp [h]

theorem represents_occ {v : Nat} {s : Index} {past : List (List Nat)} (h : Represents v s past)
    {i : Nat} (hi : i < v) :
    (s.sets[i]?).map Finset.card = some (past.countP fun ids => decide (i ∈ ids)) := by
  rw [h.2.2 i hi, Option.map_some, ← card_filter_getD past []]
  simp

theorem represents_co {v : Nat} {s : Index} {past : List (List Nat)} (h : Represents v s past)
    {i j : Nat} (hi : i < v) (hj : j < v) :
    ((s.sets[i]?).bind fun s1 => (s.sets[j]?).map fun s2 => (s1 ∩ s2).card)
      = some (past.countP fun ids => decide (i ∈ ids) && decide (j ∈ ids)) := by
  rw [h.2.2 i hi, h.2.2 j hj]
  simp only [Option.bind_some, Option.map_some, Option.some.injEq]
  rw [← card_filter_getD past [], ← Finset.filter_and]
  simp

theorem idxOf_mem_map {rel : List W} {w : W} (hw : w ∈ rel) (l : List W) (hl : ∀ x ∈ l, x ∈ rel) :
    rel.idxOf w ∈ l.map rel.idxOf ↔ w ∈ l := by
  constructor
  · intro h
    obtain ⟨x, hx, he⟩ := List.mem_map.1 h
    exact (List.idxOf_inj (hl x hx)).1 he ▸ hx
  · exact fun h => List.mem_map_of_mem h

/-- Contiguous ids of the relevant words of a document. -/
def docIds {C : Type} (rel : List W) (doc : List (W × C)) : List Nat :=
  (rel.filter fun w => decide (w ∈ doc.map Prod.fst)).map rel.idxOf

theorem represents_accumulate {C : Type} (rel : List W) (docs : List (List (W × C))) (s : Index)
    (past : List (List Nat)) (h : Represents rel.length s past) :
    ∃ s', accumulateCorpus rel s docs = some s' ∧
      Represents rel.length s' (past ++ docs.map (docIds rel)) := by
  induction docs generalizing s past with
  | nil => exact ⟨s, rfl, by simpa using h⟩
  | cons doc docs ih =>
    obtain ⟨sets, ha, hr⟩ := represents_add h (docIds rel doc) (by
      intro i hi
      obtain ⟨w, hw, rfl⟩ := List.mem_map.1 hi
      exact List.idxOf_lt_length_of_mem (List.mem_filter.1 hw).1)
    obtain ⟨s', h1, h2⟩ := ih _ _ hr
    refine ⟨s', ?_, by simpa using h2⟩
    unfold docIds at ha
    simp only [accumulateCorpus, analyzeDoc, ha, Option.map_some]
    exact h1

theorem mem_docIds {C : Type} {rel : List W} {w : W} (hw : w ∈ rel) (doc : List (W × C)) :
    decide (rel.idxOf w ∈ docIds rel doc) = mentions w doc := by
  rw [Bool.eq_iff_iff, decide_eq_true_iff]
  unfold docIds
  rw [idxOf_mem_map hw _ (fun x hx => (List.mem_filter.1 hx).1)]
  simp [mentions, hw]

/-! ## C51 -/

/-- **C51.** For every duplicate-free relevant set and every history of `accumulate` calls:
accumulation never fails; the occurrences of a relevant id are the number of documents of all calls
that mention it, the co-occurrences the number that mention both, `num_docs` the number of
documents, and asking for an id that is not relevant fails. -/
theorem C51_exact {C : Type} (rel : List W) (calls : List (List (List (W × C)))) :
    ∃ s, calls.foldlM (accumulateCorpus rel) (Index.init rel) = some s ∧
      s.numDocs = calls.flatten.length ∧
      (∀ w ∈ rel, s.occurrences rel w = some (calls.flatten.countP (mentions w))) ∧
      (∀ a ∈ rel, ∀ b ∈ rel, s.coOccurrences rel a b
        = some (calls.flatten.countP fun doc => mentions a doc && mentions b doc)) ∧
      (∀ w, w ∉ rel → s.occurrences rel w = none) ∧
      (∀ a b, a ∉ rel ∨ b ∉ rel → s.coOccurrences rel a b = none) := by
  have key : ∀ (calls : List (List (List (W × C)))) (s : Index) (past : List (List Nat)),
      Represents rel.length s past →
      ∃ s', calls.foldlM (accumulateCorpus rel) s = some s' ∧
        Represents rel.length s' (past ++ calls.flatten.map (docIds rel)) := by
    intro calls
    induction calls with
    | nil => intro s past h; exact ⟨s, rfl, by simpa using h⟩
    | cons c calls ih =>
      intro s past h
      obtain ⟨s1, h1, h2⟩ := represents_accumulate rel c s past h
      obtain ⟨s2, h3, h4⟩ := ih s1 _ h2
      refine ⟨s2, ?_, by simpa using h4⟩
      rw [List.foldlM_cons, h1]
      exact h3
  obtain ⟨s, hs, hr⟩ := key calls _ [] (represents_init rel)
  refine ⟨s, hs, ?_, ?_, ?_, ?_, ?_⟩
  · rw [hr.2.1, List.nil_append, List.length_map]
  · intro w hw
    have hi := List.idxOf_lt_length_of_mem hw
    unfold Index.occurrences
    rw [contiguous_mem hw, Option.bind_some, represents_occ hr hi, List.nil_append,
      List.countP_map]
    congr 2
    funext doc
    exact mem_docIds hw doc
  · intro a ha b hb
    have hi := List.idxOf_lt_length_of_mem ha
    have hj := List.idxOf_lt_length_of_mem hb
    unfold Index.coOccurrences
    rw [contiguous_mem ha, contiguous_mem hb, Option.bind_some, Option.bind_some,
      represents_co hr hi hj, List.nil_append, List.countP_map]
    congr 2
    funext doc
    simp only [Function.comp_def]
    rw [mem_docIds ha, mem_docIds hb]
  · intro w hw
    simp [Index.occurrences, contiguous, hw]
  · intro a b h
    by_cases ha : a ∈ rel
    · have hb : b ∉ rel := h.resolve_left (fun h => h ha)
      simp [Index.coOccurrences, contiguous, ha, hb]
    · simp [Index.coOccurrences, contiguous, ha]

/-- **C51.** After any history the co-occurrence count is symmetric, at most either occurrence count,
equal to the occurrence count on the diagonal, and no count exceeds `num_docs`. -/
theorem C51_bounds {C : Type} (rel : List W) (calls : List (List (List (W × C)))) (s : Index)
    (hs : calls.foldlM (accumulateCorpus rel) (Index.init rel) = some s)
    (a b : W) (ha : a ∈ rel) (hb : b ∈ rel) :
    ∃ na nb nab, s.occurrences rel a = some na ∧ s.occurrences rel b = some nb ∧
      s.coOccurrences rel a b = some nab ∧ s.coOccurrences rel b a = some nab ∧
      s.coOccurrences rel a a = some na ∧ nab ≤ na ∧ nab ≤ nb ∧ na ≤ s.numDocs := by
  obtain ⟨s', h0, hn, ho, hc, _⟩ := C51_exact rel calls
  rw [hs] at h0
  cases h0
  refine ⟨_, _, _, ho a ha, ho b hb, hc a ha b hb, ?_, ?_, ?_, ?_, ?_⟩
  · rw [hc b hb a ha]
    congr 2
    funext doc
    exact Bool.and_comm _ _
  · rw [hc a ha a ha]
    simp
  · apply List.countP_mono_left
    intro x _ h
    exact (Bool.and_eq_true _ _ ▸ h).1
  · apply List.countP_mono_left
    intro x _ h
    exact (Bool.and_eq_true _ _ ▸ h).2
  · rw [hn]
    exact List.countP_le_length

example : (([[[(7, 1), (3, 2)], [(3, 1)]], [[(7, 5), (9, 1), (3, 1)]]]
    : List (List (List (Nat × Nat)))).foldlM (accumulateCorpus [3, 7]) (Index.init [3, 7])).bind
      (fun s => do
        let a ← s.occurrences [3, 7] 3
        let b ← s.occurrences [3, 7] 7
        let c ← s.coOccurrences [3, 7] 3 7
        pure (a, b, c, s.numDocs)) = some (3, 2, 2, 3) := by decide +kernel

/-! ## C67: InvertedIndexAccumulator -/

theorem docWindows_eq {α : Type} (k : Nat) (text : List α) :
    docWindows k text = slidingWindows k text := by
  unfold docWindows stridedWindows slidingWindows
  by_cases h1 : k = text.length
  · subst h1
    have : text.length + 1 - text.length = 1 := by omega
    simp [this]
  · rw [if_neg h1]
    by_cases h2 : text.length < k
    · simp [h2]
    · have : text.length + 1 - k = (text.length - k) + 1 := by omega
      rw [if_neg h2, if_neg h2, this]
      rw [List.range_succ_eq_map]
      rfl

theorem slidingWindows_map {α β : Type} (k : Nat) (f : α → β) (text : List α) :
    slidingWindows k (text.map f) = (slidingWindows k text).map fun w => w.map f := by
  unfold slidingWindows
  by_cases h : text.length < k
  · simp [h]
  · simp only [List.length_map, h, if_false, List.map_map]
    apply List.map_congr_left
    intro i _
    simp [List.map_drop, List.map_take]

theorem windows_of_iterWindows {α : Type} (k : Nat) (docs : List (List α)) :
    (iterWindows k docs).map Prod.snd = docs.flatMap (slidingWindows k) := by
  unfold iterWindows
  have : ∀ n, ((docs.zipIdx n).flatMap fun p => (docWindows k p.1).map fun w => (p.2, w)).map
      Prod.snd = docs.flatMap (slidingWindows k) := by
    induction docs with
    | nil => intro n; rfl
    | cons d docs ih =>
      intro n
      simp only [List.zipIdx_cons, List.flatMap_cons, List.map_append, ih, List.map_map]
      congr 1
      rw [← docWindows_eq]
      simp [Function.comp_def]
  exact this 0

theorem mem_slidingWindows_sub {α : Type} {k : Nat} {text w : List α} (h : w ∈ slidingWindows k text)
    {x : α} (hx : x ∈ w) : x ∈ text := by
  unfold slidingWindows at h
  split at h
  · simp only [List.mem_singleton] at h
    exact h ▸ hx
  · obtain ⟨i, _, rfl⟩ := List.mem_map.1 h
    exact List.mem_of_mem_drop (List.mem_of_mem_take hx)

theorem slidingWindows_cover {α : Type} {k : Nat} (hk : 0 < k) {text : List α} {x : α}
    (hx : x ∈ text) : ∃ w ∈ slidingWindows k text, x ∈ w := by
  unfold slidingWindows
  by_cases h : text.length < k
  · exact ⟨text, by simp [h], hx⟩
  · obtain ⟨i, hi, rfl⟩ := List.mem_iff_getElem.1 hx
    let j := min i (text.length - k)
    refine ⟨(text.drop j).take k, ?_, ?_⟩
    · rw [if_neg h]
      exact List.mem_map.2 ⟨j, List.mem_range.2 (by omega), rfl⟩
    · rw [List.mem_iff_getElem]
      refine ⟨i - j, by simp; omega, ?_⟩
      simp only [List.getElem_take, List.getElem_drop]
      congr 1
      omega

theorem tokenId_of_mem {rel : List W} {w : W} (h : w ∈ rel) : tokenId rel w = rel.idxOf w := by
  simp [tokenId, contiguous, h]

theorem tokenId_of_not_mem {rel : List W} {w : W} (h : w ∉ rel) : tokenId rel w = rel.length := by
  simp [tokenId, contiguous, h]

theorem tokenId_lt_iff {rel : List W} {w : W} : tokenId rel w < rel.length ↔ w ∈ rel := by
  by_cases h : w ∈ rel
  · simp [tokenId_of_mem h, h, List.idxOf_lt_length_of_mem h]
  · simp [tokenId_of_not_mem h, h]

theorem mem_map_tokenId {rel : List W} {w : W} (hw : w ∈ rel) (l : List W) :
    rel.idxOf w ∈ l.map (tokenId rel) ↔ w ∈ l := by
  constructor
  · intro h
    obtain ⟨x, hx, he⟩ := List.mem_map.1 h
    have hlt : tokenId rel x < rel.length := by
      rw [he]
      exact List.idxOf_lt_length_of_mem hw
    have hxr := tokenId_lt_iff.1 hlt
    rw [tokenId_of_mem hxr] at he
    exact (List.idxOf_inj hxr).1 he ▸ hx
  · intro h
    exact List.mem_map.2 ⟨w, h, tokenId_of_mem hw⟩

theorem runInverted_some {v : Nat} (ws : List (Nat × List Nat)) (s : Index)
    (past : List (List Nat)) (h : Represents v s past)
    (hlt : ∀ w ∈ ws, ∀ i ∈ w.2, i < v) :
    ∃ s', runInverted s ws = some s' ∧ Represents v s' (past ++ ws.map Prod.snd) := by
  induction ws generalizing s past with
  | nil => exact ⟨s, rfl, by simpa using h⟩
  | cons w ws ih =>
    obtain ⟨sets, ha, hr⟩ := represents_add h w.2 (hlt w (by simp))
    obtain ⟨s', h1, h2⟩ := ih _ _ hr (fun x hx => hlt x (by simp [hx]))
    refine ⟨s', ?_, by simpa using h2⟩
    simp only [runInverted, analyzeInverted, ha, Option.map_some]
    exact h1

theorem addAll_length {d : Nat} {is : List Nat} {sets sets' : List (Finset Nat)}
    (h : addAll d is sets = some sets') : sets'.length = sets.length := by
  induction is generalizing sets with
  | nil => cases h; rfl
  | cons i is ih =>
    by_cases hi : i < sets.length
    · simp only [addAll, addTo, hi, if_true] at h
      simpa using ih h
    · simp [addAll, addTo, hi] at h

theorem runInverted_none {v : Nat} (ws : List (Nat × List Nat)) (s : Index)
    (hl : s.sets.length = v) (hbad : ∃ w ∈ ws, ∃ i ∈ w.2, v ≤ i) : runInverted s ws = none := by
  induction ws generalizing s with
  | nil => simp at hbad
  | cons w ws ih =>
    cases ha : addAll s.numDocs w.2 s.sets with
    | none => simp [runInverted, analyzeInverted, ha]
    | some sets =>
      have hno : ¬ ∃ i ∈ w.2, v ≤ i := by
        intro hex
        rw [← hl] at hex
        rw [addAll_none _ _ _ hex] at ha
        cases ha
      obtain ⟨w', hw', hex⟩ := hbad
      rcases List.mem_cons.1 hw' with rfl | hw'
      · exact absurd hex hno
      · have hlen : sets.length = v := (addAll_length ha).trans hl
        simp only [runInverted, analyzeInverted, ha, Option.map_some]
        exact ih _ hlen ⟨w', hw', hex⟩

theorem countP_windows_relevant (rel : List W) (k : Nat) (texts : List (List W))
    (p : List W → Bool) (hp : ∀ win, p win = true → ∃ w ∈ win, w ∈ rel) :
    ((texts.filter (textIsRelevant rel)).flatMap (slidingWindows k)).countP p
      = (texts.flatMap (slidingWindows k)).countP p := by
  induction texts with
  | nil => rfl
  | cons t ts ih =>
    by_cases h : textIsRelevant rel t = true
    · rw [List.filter_cons_of_pos h, List.flatMap_cons, List.flatMap_cons, List.countP_append,
        List.countP_append, ih]
    · rw [List.filter_cons_of_neg h, List.flatMap_cons, List.countP_append, ih]
      have : (slidingWindows k t).countP p = 0 := by
        rw [List.countP_eq_zero]
        intro win hwin hpw
        obtain ⟨w, hw, hr⟩ := hp win hpw
        apply h
        simp only [textIsRelevant, List.any_eq_true, decide_eq_true_eq]
        exact ⟨w, mem_slidingWindows_sub hwin hw, hr⟩
      omega

/-- **C67.** Accumulating texts into a fresh `InvertedIndexAccumulator` raises exactly when some text
contains both a relevant and an irrelevant word. -/
theorem C67_raises_iff (rel : List W) (k : Nat) (hk : 0 < k) (texts : List (List W)) :
    accumulateInverted rel k (Index.init rel) texts = none ↔
      ∃ text ∈ texts, (∃ w ∈ text, w ∈ rel) ∧ ∃ w ∈ text, w ∉ rel := by
  constructor
  · intro h
    by_contra hno
    have hall : ∀ w ∈ iterWindows k (iterTexts rel texts), ∀ i ∈ w.2, i < rel.length := by
      intro w hw i hi
      have hmem : w.2 ∈ (iterTexts rel texts).flatMap (slidingWindows k) := by
        rw [← windows_of_iterWindows]
        exact List.mem_map_of_mem hw
      obtain ⟨doc, hdoc, hwin⟩ := List.mem_flatMap.1 hmem
      have hid := mem_slidingWindows_sub hwin hi
      obtain ⟨text, ht, rfl⟩ := List.mem_map.1 hdoc
      obtain ⟨x, hx, rfl⟩ := List.mem_map.1 hid
      rw [tokenId_lt_iff]
      by_contra hxr
      obtain ⟨ht1, ht2⟩ := List.mem_filter.1 ht
      simp only [textIsRelevant, List.any_eq_true, decide_eq_true_eq] at ht2
      exact hno ⟨text, ht1, ht2, x, hx, hxr⟩
    obtain ⟨s', hs, _⟩ := runInverted_some _ _ [] (represents_init rel) hall
    unfold accumulateInverted at h
    rw [hs] at h
    cases h
  · rintro ⟨text, ht, hrel, x, hx, hxr⟩
    unfold accumulateInverted
    apply runInverted_none (v := rel.length) _ _ (by simp [Index.init])
    have hdoc : text.map (tokenId rel) ∈ iterTexts rel texts := by
      apply List.mem_map.2
      refine ⟨text, List.mem_filter.2 ⟨ht, ?_⟩, rfl⟩
      simpa [textIsRelevant] using hrel
    have hxm : rel.length ∈ text.map (tokenId rel) :=
      List.mem_map.2 ⟨x, hx, tokenId_of_not_mem hxr⟩
    obtain ⟨win, hwin, hmem⟩ := slidingWindows_cover hk hxm
    have : win ∈ (iterWindows k (iterTexts rel texts)).map Prod.snd := by
      rw [windows_of_iterWindows]
      exact List.mem_flatMap.2 ⟨_, hdoc, hwin⟩
    obtain ⟨w, hw, rfl⟩ := List.mem_map.1 this
    exact ⟨w, hw, rel.length, hmem, le_rfl⟩

/-- **C67.** When it does not raise, its counts are the numbers of windows (of all texts) containing
the word, respectively both words, also when words repeat inside a window. -/
theorem C67_counts (rel : List W) (k : Nat) (hk : 0 < k) (texts : List (List W)) (s : Index)
    (hs : accumulateInverted rel k (Index.init rel) texts = some s) :
    (∀ w ∈ rel, s.occurrences rel w
      = some ((texts.flatMap (slidingWindows k)).countP fun win => decide (w ∈ win))) ∧
    (∀ a ∈ rel, ∀ b ∈ rel, s.coOccurrences rel a b
      = some ((texts.flatMap (slidingWindows k)).countP
          fun win => decide (a ∈ win) && decide (b ∈ win))) := by
  have hall : ∀ w ∈ iterWindows k (iterTexts rel texts), ∀ i ∈ w.2, i < rel.length := by
    intro w hw i hi
    by_contra hge
    have := runInverted_none (v := rel.length) (iterWindows k (iterTexts rel texts))
      (Index.init rel) (by simp [Index.init]) ⟨w, hw, i, hi, by omega⟩
    unfold accumulateInverted at hs
    rw [hs] at this
    cases this
  obtain ⟨s', hs', hr⟩ := runInverted_some _ _ [] (represents_init rel) hall
  have : s' = s := by
    unfold accumulateInverted at hs
    rw [hs] at hs'
    exact (Option.some.inj hs').symm
  subst this
  have hw : ([] ++ (iterWindows k (iterTexts rel texts)).map Prod.snd : List (List Nat))
      = ((texts.filter (textIsRelevant rel)).flatMap (slidingWindows k)).map
          fun w => w.map (tokenId rel) := by
    rw [List.nil_append, windows_of_iterWindows, iterTexts, List.flatMap_map, List.map_flatMap]
    congr 1
    funext t
    exact slidingWindows_map k (tokenId rel) t
  rw [hw] at hr
  constructor
  · intro w hwr
    unfold Index.occurrences
    rw [contiguous_mem hwr, Option.bind_some,
      represents_occ hr (List.idxOf_lt_length_of_mem hwr), List.countP_map]
    rw [← countP_windows_relevant rel k texts _ (by
      intro win h
      exact ⟨w, by simpa using h, hwr⟩)]
    congr 2
    funext win
    simp only [Function.comp_def, mem_map_tokenId hwr]
  · intro a ha b hb
    unfold Index.coOccurrences
    rw [contiguous_mem ha, contiguous_mem hb, Option.bind_some, Option.bind_some,
      represents_co hr (List.idxOf_lt_length_of_mem ha) (List.idxOf_lt_length_of_mem hb),
      List.countP_map]
    rw [← countP_windows_relevant rel k texts _ (by
      intro win h
      simp only [Bool.and_eq_true, decide_eq_true_eq] at h
      exact ⟨a, h.1, ha⟩)]
    congr 2
    funext win
    simp only [Function.comp_def, mem_map_tokenId ha, mem_map_tokenId hb]

/-- A text with one irrelevant word makes it raise; the same text without it is counted. -/
theorem C67_raises_witness :
    accumulateInverted ["human", "user"] 2 (Index.init ["human", "user"])
        [["human", "the", "user"]] = none ∧
      ((accumulateInverted ["human", "user"] 2 (Index.init ["human", "user"])
        [["the"], ["human", "human", "user"]]).bind fun s =>
          s.occurrences ["human", "user"] "human") = some 2 := by decide +kernel

end Verif.Coherence
