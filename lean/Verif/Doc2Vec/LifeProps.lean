import Verif.Doc2Vec.LifeModel
import Verif.Doc2Vec.TagsProps
import Verif.W2V.OnlineProps

/-!
# C142: settings, vocabulary and vectors of Doc2Vec
-/

namespace Verif.Doc2Vec.Life
open Verif PyDict W2V

/-! ## Specification -/

/-- The kind of training that the documentation of the arguments promises: `dm=0` is DBOW, with word vectors if `dbow_words`; otherwise DM,
concatenating if `dm_concat`, and else averaging unless `dm_mean=0`. -/
def requested (a : Args) : Mode :=
  if a.dm = 0 then .dbow (a.dbowWords ≠ 0) else if a.dmConcat ≠ 0 then .concat else .dm (a.dmMean.getD 1 ≠ 0)

section
variable {κ V : Type} [DecidableEq κ]

/-- There is one vector for every row that a tag can have. -/
def Sound (m : Model κ V) : Prop := m.dv.length = m.tags.indexToKey.length ∧ ∀ t r, rowOf m.tags t = some r → r < m.dv.length

end

/-! ## Proofs -/

/-- **C142.** With `dm` 0 or 1 the kind of training is the requested one if `dm_mean` and `cbow_mean` are left alone, and the layer has the
size for it. -/
theorem C142_settings (a : Args) (hdm : a.dm ≤ 1) (hm : a.dmMean = none) (hc : a.cbowMean = none) :
    mode (init a) = requested a ∧ (init a).nullWord = some a.dmConcat ∧
    (init a).layer1 = some (if mode (init a) = .concat then (a.dmTagCount + 2 * a.window) * a.vectorSize else a.vectorSize) := by
  have h : a.dm = 0 ∨ a.dm = 1 := by omega
  rcases h with h | h <;> by_cases h2 : a.dmConcat = 0 <;>
    simp [mode, init, initWord, initDoc, requested, h, h2, hm, hc]

/-- (Finding) `dm_mean` has no effect at all, so that with `dm_mean=0` context vectors are averaged all the same. -/
theorem C142_dm_mean (a : Args) (v : Option Nat) : init { a with dmMean := v } = init a ∧
    (a.dm = 1 → a.dmConcat = 0 → a.cbowMean = none → a.dmMean = some 0 → mode (init a) = .dm true ∧ requested a = .dm false) := by
  constructor
  · rfl
  · intro h1 h2 h3 h4
    simp [mode, init, initWord, initDoc, requested, h1, h2, h3, h4]

variable {κ V : Type} [DecidableEq κ]

theorem rowOf_lt (docs : List (Nat × List (Tag κ))) (t : Tag κ) (r : Nat) (h : rowOf (buildTags docs) t = some r) :
    r < (buildTags docs).indexToKey.length := by
  obtain ⟨m, _, _, h3, h4, h5⟩ := C37_rows docs
  cases t with
  | str t =>
    by_cases ht : ∃ doc ∈ docs, Tag.str t ∈ doc.2
    · obtain ⟨r', e1, _, e2⟩ := h4 t ht
      rw [h] at e1
      injection e1 with e1
      rw [← e1] at e2
      exact (List.getElem?_eq_some_iff.mp e2).1
    · rw [h5 t ht] at h
      cases h
  | int i =>
    unfold rowOf KV.getIndex at h
    split at h
    · rename_i j hj
      exfalso
      dsimp only at hj
      have hgi : (buildTags docs).keyToIndex.get? (Tag.int i) = none := by
        unfold buildTags store
        dsimp only
        rw [get?_foldl_str_int (fun d : Doctag => d.index + if (scan docs).maxInt > -1 then ((scan docs).maxInt + 1).toNat else 0)]
        rfl
      rw [hgi] at hj
      cases hj
    · simp only [Tag.asInt] at h
      split at h
      · rename_i hi
        injection h with h
        simp only [List.length_map] at hi
        omega
      · cases h

theorem prep_length (fresh : Nat → V) (n : Nat) (prior vs : List V) (h : prepVectors fresh n prior = some vs) : vs.length = n := by
  unfold prepVectors at h
  split at h
  · cases h
    assumption
  · split at h
    · cases h
    · cases h
      simp
      omega

theorem prep_empty (fresh : Nat → V) (n : Nat) : prepVectors fresh n [] = some ((List.range n).map fresh) := by
  unfold prepVectors
  by_cases h : n = 0
  · subst h; rfl
  · rw [if_neg (by simpa using fun e => h e.symm), if_neg (by simp), List.range_eq_range']
    simp

/-- The first vocabulary: every tag of the corpus has its own new vector, and a row given to training is always the row of a vector. -/
theorem C142_first (argsort : List Nat → List Nat) (fresh freshDoc : Nat → V) (zero : V) (docs : List (Nat × List (Tag κ))) (b : Build κ)
    (hb : b.update = false) (m : Model κ V) (h : buildVocab argsort fresh freshDoc zero Model.empty docs b = some m) :
    Sound m ∧ (∀ r, (hr : r < m.dv.length) → m.dv[r] = freshDoc r) ∧
    (∀ doc ∈ docs, (∀ i, Tag.int i ∈ doc.2 → 0 ≤ i) → (doctagIndexes m doc.2).length = doc.2.length) ∧
    (∀ tags, ∀ r ∈ doctagIndexes m tags, r < m.dv.length) := by
  unfold buildVocab docWeights at h
  obtain ⟨w, _, h⟩ := Option.bind_eq_some_iff.1 h
  rw [if_neg (by simp [hb])] at h
  obtain ⟨dv, h2, rfl⟩ := Option.map_eq_some_iff.1 h
  rw [show (Model.empty : Model κ V).dv = [] from rfl, prep_empty] at h2
  injection h2 with h2
  have hs : Sound (⟨w, store (Model.empty : Model κ V).tags (scan docs), dv⟩ : Model κ V) := by
    constructor
    · rw [← h2]; simp
    · intro t r hr
      rw [← h2]
      have := rowOf_lt docs t r hr
      rw [List.length_map, List.length_range]
      exact this
  refine ⟨hs, ?_, ?_, ?_⟩
  · intro r hr
    simp only [← h2]
    simp
  · intro doc hdoc hpos
    obtain ⟨k, g1, _, g3, g4, _⟩ := C37_rows docs
    have : ∀ t ∈ doc.2, ∃ r, rowOf (buildTags docs) t = some r := by
      intro t ht
      cases t with
      | int i =>
        have h0 := hpos i ht
        have h1 := g1 doc hdoc i ht
        obtain ⟨n, rfl⟩ := Int.eq_ofNat_of_zero_le h0
        exact ⟨n, (g3 n (by omega)).1⟩
      | str t =>
        obtain ⟨r, hr, _⟩ := g4 t ⟨doc, hdoc, ht⟩
        exact ⟨r, hr⟩
    unfold doctagIndexes
    change (List.filterMap (rowOf (buildTags docs)) doc.2).length = _
    revert this
    generalize doc.2 = l
    intro this
    induction l with
    | nil => rfl
    | cons a l ih =>
      obtain ⟨r, hr⟩ := this a (by simp)
      rw [List.filterMap_cons_some hr, List.length_cons, List.length_cons, ih (fun t ht => this t (by simp [ht]))]
  · intro tags r hr
    obtain ⟨t, _, ht⟩ := List.mem_filterMap.1 hr
    exact hs.2 t r ht

/-- Every document is given to the training function once, with the rows of its known tags, in order. -/
theorem C142_job (x : Attrs) (m : Model κ V) (train : Mode → List κ → List Nat → Nat) (job : List (List κ × List (Tag κ))) :
    doTrainJob x m train job = ((job.map fun doc => train (mode x) doc.1 (doc.2.filterMap (rowOf m.tags))).sum,
      (job.map fun doc => doc.1.length).sum) := by
  have : ∀ (n : Nat), job.foldl (fun tally doc => tally + train (mode x) doc.1 (doctagIndexes m doc.2)) n =
      n + (job.map fun doc => train (mode x) doc.1 (doc.2.filterMap (rowOf m.tags))).sum := by
    induction job with
    | nil => intro n; rfl
    | cons a l ih =>
      intro n
      rw [List.foldl_cons, ih, List.map_cons, List.sum_cons]
      unfold doctagIndexes
      omega
  unfold doTrainJob
  rw [this 0, Nat.zero_add]

/-- Adding documents to a model: the index is that of the new corpus, but no vector is added (a finding: with more tags than vectors the rows
of some tags are not rows of the array). -/
theorem C142_update (argsort : List Nat → List Nat) (fresh freshDoc : Nat → V) (zero : V) (m m' : Model κ V) (docs : List (Nat × List (Tag κ)))
    (b : Build κ) (hb : b.update = true) (h : buildVocab argsort fresh freshDoc zero m docs b = some m') :
    m'.dv = m.dv ∧ m'.tags.indexToKey = (buildTags docs).indexToKey ∧
    (∀ t, (∃ doc ∈ docs, Tag.str t ∈ doc.2) → rowOf m'.tags (Tag.str t) = rowOf (buildTags docs) (Tag.str t)) ∧
    (∀ t r, (∃ doc ∈ docs, Tag.str t ∈ doc.2) → rowOf (buildTags docs) (Tag.str t) = some r → m.dv.length ≤ r →
      r ∈ doctagIndexes m' [Tag.str t] ∧ m'.dv[r]? = none) := by
  unfold buildVocab docWeights at h
  obtain ⟨w, _, h⟩ := Option.bind_eq_some_iff.1 h
  rw [if_pos hb] at h
  cases h
  have key : ∀ t, (∃ doc ∈ docs, Tag.str t ∈ doc.2) → rowOf (store m.tags (scan docs)) (Tag.str t) = rowOf (buildTags docs) (Tag.str t) := by
    intro t ht
    have hg : ∀ old : Index κ, (store old (scan docs)).keyToIndex.get? (Tag.str t) =
        (((scan docs).lookup.get? t).map (fun d => d.index + if (scan docs).maxInt > -1 then ((scan docs).maxInt + 1).toNat else 0)).or
          (old.keyToIndex.get? (Tag.str t)) := by
      intro old
      unfold store
      dsimp only
      rw [get?_foldl_map (fun k => Tag.str k) (by intro a b e; simpa using e) (fun d : Doctag =>
        d.index + if (scan docs).maxInt > -1 then ((scan docs).maxInt + 1).toNat else 0) _ _ (inv_scan docs).wf]
      cases (scan docs).lookup.get? t <;> rfl
    obtain ⟨_, _, _, _, g4, _⟩ := C37_rows docs
    obtain ⟨r, hr, _⟩ := g4 t ht
    have hsome : ((scan docs).lookup.get? t).isSome := by
      cases hl : (scan docs).lookup.get? t with
      | some d => rfl
      | none =>
        exfalso
        have h1 := hg ⟨[], [], [], []⟩
        rw [hl] at h1
        unfold rowOf KV.getIndex at hr
        dsimp only at hr
        rw [show (buildTags docs).keyToIndex.get? (Tag.str t) = none from h1] at hr
        cases hr
    obtain ⟨d, hd⟩ := Option.isSome_iff_exists.1 hsome
    have e1 := hg m.tags
    have e2 := hg ⟨[], [], [], []⟩
    rw [hd] at e1 e2
    simp only [Option.map_some, Option.some_or] at e1 e2
    unfold rowOf KV.getIndex buildTags
    dsimp only
    rw [e1, e2]
  refine ⟨rfl, rfl, key, ?_⟩
  intro t r ht hr hle
  refine ⟨?_, List.getElem?_eq_none hle⟩
  unfold doctagIndexes
  rw [List.filterMap_cons_some ((key t ht).trans hr)]
  simp

/-- Resetting from another model: the words and tags are those of the other one, with as many vectors.  It fails exactly if the model has
more vectors than the other one needs, and it does not reset (a finding): vectors that the model already has are kept. -/
theorem C142_reset (fresh freshDoc : Nat → V) (zero : V) (m other : Model κ V) (ho : Sound other) (hw : other.words.vectors.length = other.words.wv.i2k.length) :
    (resetFrom fresh freshDoc zero m other = none ↔ other.words.vectors.length < m.words.vectors.length ∨ other.dv.length < m.dv.length) ∧
    ∀ m', resetFrom fresh freshDoc zero m other = some m' →
      Sound m' ∧ m'.words.wv = other.words.wv ∧ m'.tags = other.tags ∧ m'.words.vectors.length = other.words.vectors.length ∧
      (∀ r < m'.dv.length, m'.dv[r]? = some (m.dv[r]?.getD (freshDoc r))) ∧
      (∀ r < m'.words.vectors.length, m'.words.vectors[r]? = some (m.words.vectors[r]?.getD (fresh r))) := by
  have hp : ∀ (f : Nat → V) n (prior : List V), prepVectors f n prior = none ↔ n < prior.length := by
    intro f n prior
    unfold prepVectors
    split
    · simp; omega
    · split
      · simp; omega
      · simp; omega
  have hq : ∀ (f : Nat → V) n (prior vs : List V), prepVectors f n prior = some vs → ∀ r < vs.length, vs[r]? = some (prior[r]?.getD (f r)) := by
    intro f n prior vs h r hr
    unfold prepVectors at h
    split at h
    · cases h
      rw [List.getElem?_eq_getElem hr]
      rfl
    · split at h
      · cases h
      · cases h
        by_cases h1 : r < prior.length
        · rw [List.getElem?_append_left h1, List.getElem?_eq_getElem h1]
          rfl
        · have h2 : r < n := by simp at hr; omega
          rw [List.getElem?_append_right (by omega), List.getElem?_eq_none (l := prior) (by omega), List.getElem?_map, List.getElem?_range' (by omega)]
          simp
          congr 1
          omega
  unfold resetFrom docWeights
  rw [if_neg (by simp)]
  constructor
  · cases h1 : prepVectors fresh other.words.wv.i2k.length m.words.vectors with
    | none =>
      have := (hp _ _ _).1 h1
      simp only [Option.bind_none, true_iff]
      left
      omega
    | some vs =>
      have n1 : ¬ other.words.wv.i2k.length < m.words.vectors.length := fun hlt => by
        rw [(hp fresh _ _).2 hlt] at h1
        cases h1
      simp only [Option.bind_some, Option.map_eq_none_iff, hp]
      rw [← ho.1]
      omega
  · intro m' h
    obtain ⟨vs, h1, h⟩ := Option.bind_eq_some_iff.1 h
    obtain ⟨dv, h2, rfl⟩ := Option.map_eq_some_iff.1 h
    have l1 := prep_length _ _ _ _ h1
    have l2 := prep_length _ _ _ _ h2
    refine ⟨⟨l2, ?_⟩, rfl, rfl, by rw [hw]; exact l1, hq _ _ _ _ h2, hq _ _ _ _ h1⟩
    intro t r hr
    have := ho.2 t r hr
    dsimp only
    rw [l2, ← ho.1]
    exact this

/-- Building the vocabulary from frequencies leaves the tags as they are; a new model has no documents. -/
theorem C142_freq (argsort : List Nat → List Nat) (fresh freshDoc : Nat → V) (zero : V) (m m' : Model κ V) (b : Build κ) (hm : Sound m)
    (h : buildVocabFromFreq argsort fresh freshDoc zero m b = some m') : Sound m' ∧ m'.tags = m.tags ∧ m'.dv = m.dv ∧
    buildFull argsort fresh zero m.words b = some m'.words := by
  unfold buildVocabFromFreq at h
  obtain ⟨w, h1, h⟩ := Option.bind_eq_some_iff.1 h
  obtain ⟨dv, h2, rfl⟩ := Option.map_eq_some_iff.1 h
  have e : dv = m.dv := by
    unfold docWeights at h2
    split at h2
    · cases h2; rfl
    · unfold prepVectors at h2
      rw [if_pos hm.1] at h2
      cases h2
      rfl
  subst e
  exact ⟨hm, rfl, rfl, h1⟩

/-- Looking up: a string is a word if it is one and else a tag; an integer is the number of a word if there are so many (a finding: the vector
of the document with that number is not reached), and else a document; several keys give all their vectors or fail. -/
theorem C142_getitem (m : Model κ V) (hw : m.words.vectors.length = m.words.wv.i2k.length) :
    (∀ k i, m.words.wv.k2i.get? k = some i → getItem m (.str k) = m.words.vectors[i]?) ∧
    (∀ k, m.words.wv.k2i.get? k = none → getItem m (.str k) = (rowOf m.tags (.str k)).bind fun r => m.dv[r]?) ∧
    (∀ n : Nat, n < m.words.vectors.length → getItem m (.int n) = m.words.vectors[n]?) ∧
    (∀ n : Nat, m.words.vectors.length ≤ n → getItem m (.int n) = (rowOf m.tags (.int n)).bind fun r => m.dv[r]?) ∧
    (∀ ts vs, getItems m ts = some vs ↔ ts ≠ [] ∧ ts.map (getItem m) = vs.map some) := by
  refine ⟨?_, ?_, ?_, ?_, ?_⟩
  · intro k i h; simp [getItem, wordIndex, h]
  · intro k h; simp [getItem, wordIndex, h]
  · intro n h
    rw [hw] at h
    simp [getItem, wordIndex, h]
  · intro n h
    rw [hw] at h
    have : ¬ n < m.words.wv.i2k.length := by omega
    simp [getItem, wordIndex, this]
  · intro ts vs
    unfold getItems
    by_cases h0 : ts = []
    · simp [h0]
    · rw [if_neg h0]
      simp only [ne_eq, h0, not_false_eq_true, true_and]
      clear h0
      induction ts generalizing vs with
      | nil => cases vs <;> simp
      | cons a l ih =>
        rw [List.mapM_cons]
        cases ha : getItem m a with
        | none => cases vs <;> simp [ha]
        | some v =>
          cases vs with
          | nil =>
            simp only [List.map_cons, List.map_nil, reduceCtorEq, iff_false]
            intro h
            obtain ⟨x, _, h⟩ := Option.bind_eq_some_iff.1 h
            obtain ⟨y, _, h⟩ := Option.bind_eq_some_iff.1 h
            cases h
          | cons b vs =>
            simp only [List.map_cons, List.cons.injEq, ha, Option.some.injEq]
            rw [← ih vs]
            constructor
            · intro h
              obtain ⟨x, hx, h⟩ := Option.bind_eq_some_iff.1 h
              obtain ⟨y, hy, h⟩ := Option.bind_eq_some_iff.1 h
              cases hx
              injection h with h
              injection h with h1 h2
              subst h1 h2
              exact ⟨rfl, hy⟩
            · rintro ⟨rfl, h⟩
              change (some v >>= fun r => List.mapM (getItem m) l >>= fun rs => pure (r :: rs)) = _
              rw [h]
              rfl

/-- The warning about unused rows is given exactly if an integer tag is larger than the number of documents. -/
theorem C142_warning (docs : List (Nat × List (Tag κ))) :
    warnsExcess docs = true ↔ ∃ doc ∈ docs, ∃ i, Tag.int i ∈ doc.2 ∧ (docs.length : Int) < i := by
  have h := inv_scan docs
  have hst : ∀ i, (∃ n, (n, Tag.int i) ∈ stream docs) ↔ ∃ doc ∈ docs, Tag.int i ∈ doc.2 := by
    intro i
    unfold stream
    constructor
    · rintro ⟨n, hn⟩
      obtain ⟨d, hd, hm⟩ := List.mem_flatMap.1 hn
      obtain ⟨x, hx, e⟩ := List.mem_map.1 hm
      cases e
      exact ⟨d, hd, hx⟩
    · rintro ⟨d, hd, ht⟩
      exact ⟨d.1, List.mem_flatMap.2 ⟨d, hd, List.mem_map.2 ⟨_, ht, rfl⟩⟩⟩
  unfold warnsExcess
  rw [decide_eq_true_eq]
  constructor
  · intro hgt
    rcases h.maxMem with e | ⟨n, e⟩
    · omega
    · obtain ⟨doc, hdoc, ht⟩ := (hst _).1 ⟨n, e⟩
      exact ⟨doc, hdoc, _, ht, by omega⟩
  · rintro ⟨doc, hdoc, i, hi, hlt⟩
    obtain ⟨n, hn⟩ := (hst i).2 ⟨doc, hdoc, hi⟩
    have := h.maxLe _ _ hn
    omega

/-- Two words, for examples. -/
def exBuild (update : Bool) : Build String := ⟨update, ⟨none, 1, none, false⟩, [("w", 2), ("v", 1)]⟩

/-- A model with the vocabulary of a corpus, its document vectors numbered from 10. -/
def exModel (docs : List (Nat × List (Tag String))) : Option (Model String Nat) :=
  buildVocab id (fun i => i) (fun i => 10 + i) 0 Model.empty docs (exBuild false)

/-- (Findings) After adding three documents to a model of two, the third has no vector, the first the vector of an old one, and training goes
to a row that does not exist.  `model[0]` is the vector of a word although a document has the tag 0.  Resetting a model of two documents from one
with one document fails, and from one with two others keeps the old vectors.  The warning is missing when a row is unused, and given when none
is. -/
theorem C142_findings :
    (∃ m m' : Model String Nat, exModel [(1, [.str "a"]), (2, [.str "b"])] = some m ∧
      buildVocab id (fun i => i) (fun i => 20 + i) 0 m [(1, [.str "x"]), (1, [.str "y"]), (1, [.str "z"])] (exBuild true) = some m' ∧
      getItem m' (.str "x") = getItem m (.str "a") ∧ getItem m' (.str "z") = none ∧ doctagIndexes m' [.str "z"] = [2] ∧ m'.dv.length = 2) ∧
    (∃ m : Model String Nat, exModel [(1, [.int 0]), (2, [.int 1])] = some m ∧ getItem m (.int 0) = some 0 ∧ m.dv[0]? = some 10) ∧
    (∃ m other : Model String Nat, exModel [(1, [.str "a"]), (2, [.str "b"])] = some m ∧ exModel [(3, [.str "c"])] = some other ∧
      (resetFrom (fun i => i) (fun i => 30 + i) 0 m other).isNone = true) ∧
    (∃ m other m' : Model String Nat, exModel [(1, [.str "a"])] = some m ∧ exModel [(3, [.str "c"])] = some other ∧
      resetFrom (fun i => i) (fun i => 30 + i) 0 m other = some m' ∧ m'.dv = m.dv) ∧
    (warnsExcess [(1, [Tag.int (κ := String) 1])] = false ∧ (buildTags [(1, [Tag.int (κ := String) 1])]).indexToKey.length = 2) ∧
    warnsExcess [(1, [Tag.int (κ := String) 0, .int 1, .int 2])] = true := by
  refine ⟨⟨_, _, rfl, rfl, ?_⟩, ⟨_, rfl, ?_⟩, ⟨_, _, rfl, rfl, ?_⟩, ⟨_, _, _, rfl, rfl, rfl, ?_⟩, ?_, ?_⟩ <;> decide +kernel

/-- The hypotheses of the theorems are met. -/
example : ∃ m : Model String Nat, exModel [(1, [.int 1, .str "a"]), (2, [.str "b"])] = some m ∧ Sound m ∧ m.dv = [10, 11, 12, 13] ∧
    m.words.vectors.length = m.words.wv.i2k.length ∧ doctagIndexes m [.str "b", .str "unknown", .int 1] = [3, 1] := by
  refine ⟨_, rfl, ?_, ?_, ?_, ?_⟩
  · exact (C142_first id (fun i => i) (fun i => 10 + i) 0 [(1, [.int 1, .str "a"]), (2, [.str "b"])] (exBuild false) rfl _ rfl).1
  all_goals decide +kernel

example : mode (init ⟨1, none, 0, 1, 1, 5, 100, none⟩) = .concat ∧ (init ⟨1, none, 0, 1, 1, 5, 100, none⟩).layer1 = some 1100 := by decide

end Verif.Doc2Vec.Life
