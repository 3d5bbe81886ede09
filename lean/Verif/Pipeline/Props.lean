import Verif.Dictionary.TextProps
import Verif.Formats.MmProps
import Verif.Tfidf.SmartProps

/-!
# C159: a bag-of-words pipeline that goes through files

Composes the models of `Dictionary` (with its text format), of Matrix Market corpora and of `TfidfModel`.
-/

namespace Verif.Pipeline

open Verif PyDict Text Dictionary Formats

variable {τ : Type} [LinearOrder τ]

/-! ## Specification -/

/-- Two dictionaries that give the same answers about ids and document frequencies. -/
structure Agree (d d' : Dct τ) : Prop where
  numDocs : d'.numDocs = d.numDocs
  len : d'.len = d.len
  ids : ∀ w, idOf d' w = idOf d w
  dfs : ∀ i, get? d'.dfs i = get? d.dfs i

/-- The documents of a corpus as `MmCorpus` yields them, ids as natural numbers. -/
def documents {V : Type} (read : List (Int × List (Int × V))) : List (List (Nat × V)) :=
  read.map fun x => x.2.map fun p => (p.1.toNat, p.2)

/-! ## Lemmas -/

theorem bowDict_congr {t t' : PyDict τ Nat} (h : ∀ w, get? t' w = get? t w) (c : PyDict τ Nat) :
    bowDict t' c = bowDict t c := by
  unfold bowDict; simp only [h]

theorem contains_congr {t t' : PyDict τ Nat} (h : ∀ w, get? t' w = get? t w) (w : τ) :
    contains t' w = contains t w := by
  unfold contains; rw [h]

theorem addMissing_congr (ms : List (τ × Nat)) {t t' : PyDict τ Nat} (h : ∀ w, get? t' w = get? t w)
    (hl : t'.length = t.length) :
    (∀ w, get? (addMissing t' ms) w = get? (addMissing t ms) w) ∧
    (addMissing t' ms).length = (addMissing t ms).length := by
  unfold addMissing
  induction ms generalizing t t' with
  | nil => exact ⟨h, hl⟩
  | cons p ms ih =>
    rw [List.foldl_cons, List.foldl_cons]
    refine ih (fun w => ?_) ?_
    · rw [get?_set, get?_set, h, hl]
    · by_cases hm : p.1 ∈ keys t
      · have hm' : p.1 ∈ keys t' := by rw [← get?_isSome_iff, h, get?_isSome_iff]; exact hm
        rw [length_set_of_mem hm, length_set_of_mem hm', hl]
      · have hm' : p.1 ∉ keys t' := by rw [← get?_isSome_iff, h, get?_isSome_iff]; exact hm
        rw [length_set_of_not_mem hm, length_set_of_not_mem hm', hl]

theorem bump_congr (inc : Nat → Nat) (r : PyDict Nat Nat) {a b : PyDict Nat Nat} (h : ∀ i, get? a i = get? b i) :
    ∀ i, get? (bump inc a r) i = get? (bump inc b r) i := by
  unfold bump
  induction r generalizing a b with
  | nil => exact h
  | cons p r ih =>
    rw [List.foldl_cons, List.foldl_cons]
    refine ih fun i => ?_
    rw [get?_set, get?_set, getD, getD, h, h]

theorem Agree.bow {d d' : Dct τ} (h : Agree d d') (text : List τ) : bow d' text = bow d text := by
  unfold Dictionary.bow
  rw [bowDict_congr (t := d.token2id) (t' := d'.token2id) h.ids]

theorem Agree.missing {d d' : Dct τ} (h : Agree d d') (text : List τ) : bowMissing d' text = bowMissing d text := by
  unfold bowMissing Dictionary.missing
  simp only [contains_congr (t := d.token2id) (t' := d'.token2id) h.ids]

theorem Agree.update {d d' : Dct τ} (h : Agree d d') (text : List τ) : Agree (update d text) (update d' text) := by
  have hm : Dictionary.missing d'.token2id (counter text) = Dictionary.missing d.token2id (counter text) := h.missing text
  obtain ⟨h1, h2⟩ := addMissing_congr (Dictionary.missing d.token2id (counter text)) (t := d.token2id)
    (t' := d'.token2id) h.ids h.len
  refine ⟨?_, ?_, fun w => ?_, fun i => ?_⟩
  · simp only [Dictionary.update, h.numDocs]
  · simp only [Dictionary.update, Dct.len, hm]; exact h2
  · simp only [Dictionary.update, idOf, hm]; exact h1 w
  · simp only [Dictionary.update, hm]
    rw [bowDict_congr h1]
    exact bump_congr _ _ h.dfs i

/-! ## C159 -/

/-- A dictionary stored as text and loaded gives every text the same vector, the same unknown words and the same
    list of ids, with every placeholder for unknown words. -/
theorem C159_dictionary (T : Tok τ) {d : Dct τ} (h : Reachable d) (sortByWord : Bool)
    (hc : ∀ w, known d w → '\t' ∉ T.chars w ∧ '\n' ∉ T.chars w) :
    ∃ file d', saveText T d sortByWord = some file ∧ loadText T file = some d' ∧ Agree d d' ∧
      ∀ text, bow d' text = bow d text ∧ bowMissing d' text = bowMissing d text ∧
        ∀ unknown, doc2idx d' text unknown = doc2idx d text unknown := by
  obtain ⟨file, d', h1, h2, h3, h4, h5, h6, _⟩ := C07_text_roundtrip T h sortByWord hc
  have ha : Agree d d' := ⟨h3, h4, h5, h6⟩
  refine ⟨file, d', h1, h2, ha, fun text => ⟨ha.bow text, ha.missing text, fun u => ?_⟩⟩
  unfold doc2idx
  refine List.map_congr_left fun w _ => ?_
  have := h5 w
  unfold idOf at this
  rw [this]

/-- Dictionaries that agree go on agreeing when the same documents are added to both: ids given to new words,
    document frequencies and vectors are the same. -/
theorem C159_continues {d d' : Dct τ} (h : Agree d d') (docs : List (List τ)) {e : Dct τ}
    (he : addDocuments d docs none = some e) :
    ∃ e', addDocuments d' docs none = some e' ∧ Agree e e' ∧ ∀ text, bow e' text = bow e text := by
  have main : ∀ (docs : List (List τ)) (n : Nat) (d d' : Dct τ), Agree d d' → ∀ e,
      addDocumentsFrom none n d docs = some e → ∃ e', addDocumentsFrom none n d' docs = some e' ∧ Agree e e' := by
    intro docs
    induction docs with
    | nil =>
      intro n d d' h e he
      unfold addDocumentsFrom at he
      cases he
      exact ⟨d', rfl, h⟩
    | cons x xs ih =>
      intro n d d' h e he
      unfold addDocumentsFrom at he ⊢
      simp only [ite_self] at he ⊢
      exact ih _ _ _ (h.update x) e he
  obtain ⟨e', h1, h2⟩ := main docs 0 d d' h e he
  exact ⟨e', h1, h2, h2.bow⟩

theorem documents_numbered {V : Type} (corpus : List (List (Nat × V))) : documents (numbered corpus) = corpus := by
  unfold documents numbered asRead
  rw [List.map_map]
  have : ∀ (l : List (List (Nat × V))) (n : Nat),
      (l.zipIdx n).map ((fun x : Int × List (Int × V) => x.2.map fun p => (p.1.toNat, p.2)) ∘
        fun p : List (Nat × V) × Nat => ((p.2 : Int), p.1.map fun q => ((q.1 : Int), q.2))) = l := by
    intro l
    induction l with
    | nil => intro n; rfl
    | cons x l ih => intro n; rw [List.zipIdx_cons, List.map_cons, ih]; simp [Function.comp_def]
  exact this corpus 0

/-- The vectors of texts, written to a Matrix Market file and read again, are the same vectors: counts are never
    dropped (they are not 0) and ids are in order. -/
theorem C159_corpus {V : Type} [LinearOrder V] {C : Codec V} {big : V → Bool} {nt : Option Nat} {d : Dct τ}
    (h : Reachable d) (count : Nat → V) (hbig : ∀ n, 0 < n → big (count n) = true) (texts : List (List τ))
    {file : Str} {offs : List Int}
    (hw : mmWrite C big nt (texts.map fun t => (bow d t).map fun p => (p.1, count p.2)) = some (file, offs)) :
    (mmRead C true file).map documents = some (texts.map fun t => (bow d t).map fun p => (p.1, count p.2)) := by
  have hn : ∀ x ∈ texts.map (fun t => (bow d t).map fun p => (p.1, count p.2)), Normal big x := by
    intro x hx
    obtain ⟨t, _, rfl⟩ := List.mem_map.1 hx
    obtain ⟨h1, h2⟩ := C02_doc2bow_exact h t
    refine ⟨List.pairwise_map.2 h1, fun p hp => ?_⟩
    obtain ⟨q, hq, rfl⟩ := List.mem_map.1 hp
    obtain ⟨w, hwt, _, e⟩ := (h2 q.1 q.2).1 hq
    exact hbig _ (by rw [e]; exact List.count_pos_iff.2 hwt)
  rw [(C22_exact hn hw).1, Option.map_some, documents_numbered]

theorem countDoc_counts {V : Type} (count : Nat → V) (dfs : PyDict Nat Nat) (doc : List (Nat × Nat)) :
    Tfidf.countDoc dfs (doc.map fun p => (p.1, count p.2)) = Tfidf.countDoc dfs doc := by
  unfold Tfidf.countDoc
  rw [List.foldl_map]

theorem train_counts {V : Type} (wglobal : Nat → Nat → ℝ) (count : Nat → V) (corpus : List (List (Nat × Nat))) :
    Tfidf.train wglobal (corpus.map fun doc => doc.map fun p => (p.1, count p.2)) = Tfidf.train wglobal corpus := by
  have : ∀ (l : List (List (Nat × Nat))) (dfs : PyDict Nat Nat),
      (l.map fun doc => doc.map fun p => (p.1, count p.2)).foldl Tfidf.countDoc dfs = l.foldl Tfidf.countDoc dfs := by
    intro l
    induction l with
    | nil => intro dfs; rfl
    | cons x l ih => intro dfs; rw [List.map_cons, List.foldl_cons, List.foldl_cons, countDoc_counts, ih]
  unfold Tfidf.train
  simp only [this, List.length_map, List.map_map, Function.comp_def]

/-- The whole pipeline: TF-IDF models of the corpus in memory, of the corpus read from its Matrix Market file, of
    the dictionary and of the dictionary loaded from its text file transform every vector alike (with the same
    weights, normalisation and pivot). -/
theorem C159_tfidf {V : Type} [LinearOrder V] (T : Tok τ) (texts : List (List τ)) {d : Dct τ}
    (hd : addDocuments empty texts none = some d) (sortByWord : Bool)
    (hc : ∀ t ∈ texts, ∀ w ∈ t, '\t' ∉ T.chars w ∧ '\n' ∉ T.chars w)
    {C : Codec V} {big : V → Bool} {nt : Option Nat} (count : Nat → V) (hbig : ∀ n, 0 < n → big (count n) = true)
    {file : Str} {offs : List Int}
    (hw : mmWrite C big nt (texts.map fun t => (bow d t).map fun p => (p.1, count p.2)) = some (file, offs)) :
    ∃ text d' read, saveText T d sortByWord = some text ∧ loadText T text = some d' ∧
      (mmRead C true file).map documents = some read ∧
      ∀ (wglobal : Nat → Nat → ℝ) (m : Tfidf.Model) (eps : ℝ) (v : List (Nat × ℝ)),
        Tfidf.transform { m with stats := Tfidf.train wglobal read } eps v
          = Tfidf.transform { m with stats := Tfidf.train wglobal (texts.map (bow d)) } eps v ∧
        Tfidf.transform { m with stats := Tfidf.fromDictionary wglobal d } eps v
          = Tfidf.transform { m with stats := Tfidf.train wglobal (texts.map (bow d)) } eps v ∧
        Tfidf.transform { m with stats := Tfidf.fromDictionary wglobal d' } eps v
          = Tfidf.transform { m with stats := Tfidf.train wglobal (texts.map (bow d)) } eps v := by
  have hr : Reachable d := .addDocuments texts none .empty hd
  obtain ⟨d1, e1, hk, _⟩ := C03_statistics_exact texts none (fun k hk => by cases hk)
  rw [hd] at e1
  cases e1
  obtain ⟨text, d', h1, h2, ha, _⟩ := C159_dictionary T hr sortByWord (fun w hkw => by
    obtain ⟨t, ht, hwt⟩ := (hk w).1 hkw
    exact hc t ht w hwt)
  refine ⟨text, d', _, h1, h2, C159_corpus hr count hbig texts hw, fun wglobal m eps v => ⟨?_, ?_, ?_⟩⟩
  · have := train_counts wglobal count (texts.map (bow d))
    rw [List.map_map] at this
    simp only [Function.comp_def] at this
    rw [this]
  · exact Tfidf.C49_from_dictionary_vectors wglobal texts hd m eps v
  · rw [← Tfidf.C49_from_dictionary_vectors wglobal texts hd m eps v]
    refine Tfidf.transform_congr m _ _ (fun i => ?_) eps v
    have hmap : ∀ (l : PyDict Nat Nat) (n : Nat), get? (Tfidf.precomputeIdfs wglobal l n) i
        = (get? l i).map fun f => wglobal f n := by
      intro l n
      unfold Tfidf.precomputeIdfs
      induction l with
      | nil => rfl
      | cons p l ih =>
        rw [List.map_cons, get?_cons, get?_cons, ih]
        split <;> rfl
    simp only [Tfidf.fromDictionary, hmap, ha.dfs, ha.numDocs]

theorem loadLines_rest (T : Tok τ) (ls : List Str) (d d' : Dct τ) (h : loadLines T ls d = some d') :
    d'.cfs = d.cfs ∧ d'.numNnz = d.numNnz ∧ d'.numPos = d.numPos := by
  induction ls generalizing d with
  | nil => unfold loadLines at h; cases h; exact ⟨rfl, rfl, rfl⟩
  | cons l ls ih =>
    unfold loadLines at h
    cases hl : loadLine T d l with
    | none => rw [hl] at h; cases h
    | some d1 =>
      rw [hl] at h
      obtain ⟨h1, h2, h3⟩ := ih d1 h
      have : d1.cfs = d.cfs ∧ d1.numNnz = d.numNnz ∧ d1.numPos = d.numPos := by
        unfold loadLine at hl
        split at hl
        · split at hl
          · cases hl
          · split at hl
            · cases hl
            · split at hl
              · cases hl
              · cases hl; exact ⟨rfl, rfl, rfl⟩
        · cases hl
      exact ⟨h1.trans this.1, h2.trans this.2.1, h3.trans this.2.2⟩

theorem loadText_rest (T : Tok τ) (s : Str) (d : Dct τ) (h : loadText T s = some d) :
    d.cfs = [] ∧ d.numNnz = 0 ∧ d.numPos = 0 := by
  unfold loadText at h
  split at h
  · cases h; exact ⟨rfl, rfl, rfl⟩
  · split at h
    · split at h
      · cases h
      · exact loadLines_rest T _ _ _ h
    · exact loadLines_rest T _ _ _ h

/-- Finding: a dictionary loaded from text has lost the collection frequencies and the numbers of positions and
    of entries, so the automatic pivots of TF-IDF break: that of the code `u` is 0 instead of the mean number of
    different words of a text, and that of the code `b` raises. -/
theorem C159_pivot_lost (T : Tok τ) (texts : List (List τ)) {d : Dct τ}
    (hd : addDocuments empty texts none = some d) (sortByWord : Bool)
    (hc : ∀ t ∈ texts, ∀ w ∈ t, '\t' ∉ T.chars w ∧ '\n' ∉ T.chars w) (hne : ∃ t ∈ texts, t ≠ [])
    (wglobal : Nat → Nat → ℝ) (len : τ → Nat) :
    ∃ text d', saveText T d sortByWord = some text ∧ loadText T text = some d' ∧
      d'.numPos = 0 ∧ d'.numNnz = 0 ∧ (∀ w, cfOf d' w = none) ∧
      (∃ x > 0, Tfidf.smartPivot 'u' (Tfidf.fromDictionary wglobal d) (some d) (Tfidf.termLens len d) = some (some x)) ∧
      Tfidf.smartPivot 'u' (Tfidf.fromDictionary wglobal d') (some d') (Tfidf.termLens len d') = some (some 0) ∧
      (∃ x > 0, Tfidf.smartPivot 'b' (Tfidf.fromDictionary wglobal d) (some d) (Tfidf.termLens len d) = some (some x)) ∧
      Tfidf.smartPivot 'b' (Tfidf.fromDictionary wglobal d') (some d') (Tfidf.termLens len d') = none := by
  have hr : Reachable d := .addDocuments texts none .empty hd
  obtain ⟨d1, e1, hk, _⟩ := C03_statistics_exact texts none (fun k hk => by cases hk)
  rw [hd] at e1
  cases e1
  obtain ⟨text, d', h1, h2, ha, _⟩ := C159_dictionary T hr sortByWord (fun w hkw => by
    obtain ⟨t, ht, hwt⟩ := (hk w).1 hkw
    exact hc t ht w hwt)
  obtain ⟨r1, r2, r3⟩ := loadText_rest T text d' h2
  obtain ⟨t0, ht0, htne⟩ := hne
  obtain ⟨w0, hw0⟩ := List.exists_mem_of_ne_nil _ htne
  have hk0 : known d w0 := (hk w0).2 ⟨t0, ht0, hw0⟩
  have hpos : (0 : ℝ) < texts.length := by exact_mod_cast List.length_pos_of_mem ht0
  refine ⟨text, d', h1, h2, r3, r2, fun w => ?_, ?_, ?_, ?_, ?_⟩
  · unfold cfOf; rw [r1]; cases idOf d' w <;> rfl
  · obtain ⟨_, e2, _, _⟩ := Tfidf.C49_from_dictionary wglobal texts hd
    refine ⟨_, ?_, rfl⟩
    have e3 : d.numNnz = ((texts.map (bow d)).map List.length).sum := e2
    have e4 : d.numDocs = (texts.map (bow d)).length := (Tfidf.C49_from_dictionary wglobal texts hd).1
    have hb : 0 < (bow d t0).length := by
      obtain ⟨i, hi⟩ := Option.isSome_iff_exists.1 hk0
      exact List.length_pos_of_mem (((C02_doc2bow_exact hr t0).2 i _).2 ⟨w0, hw0, hi, rfl⟩)
    have hs : 0 < d.numNnz := by
      rw [e3]
      refine lt_of_lt_of_le hb (List.single_le_sum (fun _ _ => Nat.zero_le _) _ ?_)
      exact List.mem_map.2 ⟨_, List.mem_map.2 ⟨t0, ht0, rfl⟩, rfl⟩
    simp only [Tfidf.fromDictionary, one_mul, e4, List.length_map]
    exact div_pos (by exact_mod_cast hs) hpos
  · simp [Tfidf.smartPivot, Tfidf.fromDictionary, r2]
  · obtain ⟨d2, e1, e2⟩ := Tfidf.C49_pivot_bytes wglobal len texts
    rw [hd] at e1
    cases e1
    refine ⟨_, ?_, e2⟩
    refine div_pos (List.sum_pos _ ?_ ?_) hpos
    · intro x hx
      obtain ⟨w, _, rfl⟩ := List.mem_map.1 hx
      positivity
    · intro h
      have : w0 ∈ texts.flatten := List.mem_flatten.2 ⟨t0, ht0, hw0⟩
      rw [List.map_eq_nil_iff.1 h] at this
      cases this
  · have hk' : known d' w0 := by unfold known; rw [ha.ids]; exact hk0
    unfold known idOf at hk'
    rw [get?_isSome_iff] at hk'
    simp only [Tfidf.smartPivot, if_neg (show ¬ 'b' = 'u' by decide), if_true, Option.bind_some, r1]
    cases hv : values d'.token2id with
    | nil =>
      unfold values at hv
      unfold keys at hk'
      rw [List.map_eq_nil_iff.1 hv] at hk'
      cases hk'
    | cons i l => rfl

/-! ## The hypotheses are met -/

/-- Two texts over strings. -/
def sampleTexts : List (List Str) := [["human".toList, "computer".toList], ["human".toList]]

example : ∃ d, addDocuments empty sampleTexts none = some d ∧
    (∀ t ∈ sampleTexts, ∀ w ∈ t, '\t' ∉ strTok.chars w ∧ '\n' ∉ strTok.chars w) ∧ (∃ t ∈ sampleTexts, t ≠ []) ∧
    (mmWrite intCodec (fun _ => true) none
      (sampleTexts.map fun t => (bow d t).map fun p => (p.1, (p.2 : Int)))).isSome = true :=
  ⟨_, rfl, by decide +kernel, ⟨_, List.mem_cons_self, by decide⟩, by decide +kernel⟩

end Verif.Pipeline
