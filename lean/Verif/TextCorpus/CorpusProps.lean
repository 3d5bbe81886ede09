import Mathlib.Data.List.Basic
import Mathlib.Data.List.Nodup
import Mathlib.Data.List.Dedup
import Mathlib.Algebra.BigOperators.Group.List.Basic
import Mathlib.Algebra.Order.BigOperators.Group.List
import Mathlib.Data.List.Count
import Mathlib.Algebra.BigOperators.Group.Finset.Basic
import Verif.Dictionary.Props
import Verif.Py.Count
import Verif.Formats.WordProps
import Verif.Formats.LineProps
import Verif.TextCorpus.CorpusModel

/-!
# C123: corpora of texts, and the vocabulary and dictionary of UCI corpora
-/

namespace Verif.TextCorpus.Text

open Verif PyDict Verif.Text Verif.Dictionary

variable {τ : Type} [LinearOrder τ] {L : Type}

/-! ### TextCorpus -/

theorem readTexts_ok {pre : L → Option (List τ)} {tok : L → List τ} : ∀ {lines : List L},
    (∀ l ∈ lines, pre l = some (tok l)) → readTexts pre lines = (lines.map tok, false)
  | [], _ => rfl
  | l :: ls, h => by
    rw [readTexts, h l (by simp)]
    simp only
    rw [readTexts_ok (fun m hm => h m (by simp [hm]))]
    rfl

theorem readTexts_fail {pre : L → Option (List τ)} {tok : L → List τ} {bad : L} {rest : List L} (hb : pre bad = none) :
    ∀ {lines : List L}, (∀ l ∈ lines, pre l = some (tok l)) → readTexts pre (lines ++ bad :: rest) = (lines.map tok, true)
  | [], _ => by simp [readTexts, hb]
  | l :: ls, h => by
    rw [List.cons_append, readTexts, h l (by simp)]
    simp only
    rw [readTexts_fail hb (fun m hm => h m (by simp [hm]))]
    rfl

/-- The vector of a document has the counts of all its words if they are all known: nothing is lost. -/
theorem bow_sum {d : Dct τ} (h : Reachable d) (doc : List τ) (hk : ∀ w ∈ doc, known d w) :
    ((bow d doc).map Prod.snd).sum = doc.length := by
  obtain ⟨hs, hm⟩ := C02_doc2bow_exact h doc
  have hinj := (C01_ids_dense_bijection h).1
  have hp : (bow d doc).Perm (doc.dedup.map (fun w => ((idOf d w).getD 0, doc.count w))) := by
    rw [List.perm_ext_iff_of_nodup]
    · rintro ⟨i, n⟩
      rw [hm, List.mem_map]
      constructor
      · rintro ⟨w, hw, hi, rfl⟩
        exact ⟨w, List.mem_dedup.mpr hw, by rw [hi]; rfl⟩
      · rintro ⟨w, hw, he⟩
        have hw' := List.mem_dedup.mp hw
        obtain ⟨j, hj⟩ := Option.isSome_iff_exists.mp (hk w hw')
        rw [hj] at he
        simp only [Option.getD_some, Prod.mk.injEq] at he
        exact ⟨w, hw', by rw [hj, he.1], he.2.symm⟩
    · exact hs.imp (fun {p q} hlt he => by rw [he] at hlt; exact lt_irrefl _ hlt)
    · refine List.Nodup.map_on ?_ (List.nodup_dedup doc)
      intro a ha b hb hab
      obtain ⟨i, hi⟩ := Option.isSome_iff_exists.mp (hk a (List.mem_dedup.mp ha))
      obtain ⟨j, hj⟩ := Option.isSome_iff_exists.mp (hk b (List.mem_dedup.mp hb))
      rw [hi, hj] at hab
      simp only [Option.getD_some, Prod.mk.injEq] at hab
      exact hinj a b i hi (by rw [hj, hab.1])
  rw [(hp.map Prod.snd).sum_eq, List.map_map]
  exact List.sum_map_count_dedup_eq_length doc

/-- **C123.** A `TextCorpus` over a file, without a dictionary, has a dictionary of exactly the words of the texts, knows
its length, and iterating over it gives for every line, in order, the vector of its text: sorted by id, with the
number of occurrences of every word, losing none; with metadata, the number of the line comes with it.  (The dictionary
is pruned only if there are more different words than `prune_at`, two million.) -/
theorem C123_text_built (pre : L → Option (List τ)) (tok : L → List τ) (pruneAt : Option Nat) (lines : List L)
    (metadata : Bool) (hok : ∀ l ∈ lines, pre l = some (tok l))
    (hp : ∀ k, pruneAt = some k → (lines.map tok).flatten.dedup.length ≤ k) :
    ∃ c, construct pre pruneAt (some lines) none metadata = some c ∧
      c.metadata = metadata ∧ c.length = some lines.length ∧ c.dict.numDocs = lines.length ∧
      (∀ w, known c.dict w ↔ ∃ l ∈ lines, w ∈ tok l) ∧
      ∃ bows, iterate pre lines c = (bows, false, c) ∧ bows.length = lines.length ∧
        ∀ (i : Nat) (l : L), lines[i]? = some l → ∃ v, bows[i]? = some (v, if metadata then some i else none) ∧
          v.Pairwise (fun p q => p.1 < q.1) ∧
          (∀ j n, (j, n) ∈ v ↔ ∃ w ∈ tok l, idOf c.dict w = some j ∧ n = (tok l).count w) ∧
          (v.map Prod.snd).sum = (tok l).length := by
  obtain ⟨d, hd, hknown, _, hdocs, _⟩ := C03_statistics_exact (lines.map tok) pruneAt hp
  have hr : Reachable d := .addDocuments _ _ .empty hd
  have hknown' : ∀ w, known d w ↔ ∃ l ∈ lines, w ∈ tok l := by
    intro w; rw [hknown]; simp
  refine ⟨⟨d, metadata, some lines.length⟩, ?_, rfl, rfl, by simpa using hdocs, hknown', ?_⟩
  · unfold construct initDictionary
    simp only [readTexts_ok hok, hd]
    simp
  · refine ⟨((lines.map tok).zipIdx.map (fun p => (bow d p.1, if metadata then some p.2 else none))), ?_, by simp, ?_⟩
    · unfold iterate
      simp only [readTexts_ok hok]
      simp [doc2bow]
    · intro i l hl
      obtain ⟨h1, h2⟩ := C02_doc2bow_exact hr (tok l)
      have hmem : l ∈ lines := List.mem_of_getElem? hl
      exact ⟨bow d (tok l), by simp [hl], h1, h2,
        bow_sum hr (tok l) (fun w hw => (hknown' w).mpr ⟨l, hmem, hw⟩)⟩

/-- **C123.** A dictionary that is given is used as it is: nothing is read when the corpus is made, no operation changes the
dictionary, and words it does not know are left out of the vectors. -/
theorem C123_text_given (pre : L → Option (List τ)) (tok : L → List τ) (pruneAt : Option Nat) (input : Option (List L))
    (lines : List L) (d : Dct τ) (hd : Reachable d) (metadata : Bool) (hok : ∀ l ∈ lines, pre l = some (tok l)) :
    ∃ c, construct pre pruneAt input (some d) metadata = some c ∧ c.dict = d ∧
      (∀ ops : List Op, (ops.foldl (apply pre lines) c).dict = d) ∧
      ∀ (i : Nat) (l : L), lines[i]? = some l → ∃ v, (iterate pre lines c).1[i]? = some (v, if metadata then some i else none) ∧
        ∀ j n, (j, n) ∈ v ↔ ∃ w ∈ tok l, idOf d w = some j ∧ n = (tok l).count w := by
  refine ⟨⟨d, metadata, none⟩, rfl, rfl, ?_, ?_⟩
  · have step : ∀ (c : TC τ) (o : Op), (apply pre lines c o).dict = c.dict := by
      intro c o
      cases o with
      | iterate => simp only [apply, iterate]; split <;> rfl
      | abandon => rfl
      | length => simp only [apply, len]; split <;> rfl
    have all : ∀ (ops : List Op) (c : TC τ), (ops.foldl (apply pre lines) c).dict = c.dict := by
      intro ops
      induction ops with
      | nil => intro c; rfl
      | cons o ops ih => intro c; rw [List.foldl_cons, ih, step]
    intro ops
    rw [all]
  · intro i l hl
    refine ⟨bow d (tok l), ?_, (C02_doc2bow_exact hd (tok l)).2⟩
    unfold iterate
    simp [readTexts_ok hok, hl, doc2bow]

/-- **C123.** Whatever was done with a corpus before (iterations, finished or given up, and calls of `len`), its length is
the number of lines. -/
theorem C123_text_len (pre : L → Option (List τ)) (pruneAt : Option Nat) (lines : List L) (given : Option (Dct τ))
    (metadata : Bool) (c : TC τ) (hc : construct pre pruneAt (some lines) given metadata = some c) (ops : List Op) :
    (len lines (ops.foldl (apply pre lines) c)).1 = lines.length := by
  have inv : ∀ (ops : List Op) (c : TC τ), (c.length = none ∨ c.length = some lines.length) →
      ((ops.foldl (apply pre lines) c).length = none ∨ (ops.foldl (apply pre lines) c).length = some lines.length) := by
    intro ops
    induction ops with
    | nil => intro c h; exact h
    | cons o ops ih =>
      intro c h
      rw [List.foldl_cons]
      apply ih
      cases o with
      | iterate =>
        simp only [apply, iterate]
        split
        · exact h
        · exact .inr rfl
      | abandon => exact h
      | length =>
        simp only [apply, len]
        split
        · exact h
        · exact .inr rfl
  have h0 : c.length = none ∨ c.length = some lines.length := by
    unfold construct initDictionary at hc
    cases given with
    | some d => simp only [Bool.false_eq_true, if_false, Option.some.injEq] at hc; subst hc; exact .inl rfl
    | none =>
      rcases hr : readTexts pre lines with ⟨ts, b⟩
      cases b with
      | true => simp [hr] at hc
      | false =>
        simp only [hr, Bool.false_eq_true, if_false, Option.some.injEq] at hc
        subst hc
        exact .inr rfl
  rcases inv ops c h0 with h | h <;> simp [len, h]

/-- **C123.** If the preprocessing of a line raises, the corpus cannot be made without a dictionary, and an iteration gives
exactly the vectors of the lines before it and leaves the corpus as it was. -/
theorem C123_text_raises (pre : L → Option (List τ)) (tok : L → List τ) (pruneAt : Option Nat) (before after : List L)
    (bad : L) (hok : ∀ l ∈ before, pre l = some (tok l)) (hb : pre bad = none) (metadata : Bool) (c : TC τ) :
    construct pre pruneAt (some (before ++ bad :: after)) none metadata = none ∧
    (iterate pre (before ++ bad :: after) c).1 = (iterate pre before c).1 ∧
    (iterate pre (before ++ bad :: after) c).1.length = before.length ∧
    (iterate pre (before ++ bad :: after) c).2 = (true, c) := by
  refine ⟨?_, ?_, ?_, ?_⟩
  · unfold construct initDictionary
    simp [readTexts_fail hb hok]
  · simp [iterate, readTexts_fail hb hok, readTexts_ok hok]
  · simp [iterate, readTexts_fail hb hok]
  · simp [iterate, readTexts_fail hb hok]

/-- **C123, finding.** If `init_dictionary()` is called on a corpus with metadata and the preprocessing of a line raises,
the corpus no longer gives metadata afterwards. -/
theorem C123_metadata_lost (pre : L → Option (List τ)) (tok : L → List τ) (pruneAt : Option Nat) (before after : List L)
    (bad : L) (hok : ∀ l ∈ before, pre l = some (tok l)) (hb : pre bad = none) (c : TC τ) :
    (initDictionary pre pruneAt (some (before ++ bad :: after)) none c).2 = true ∧
    (initDictionary pre pruneAt (some (before ++ bad :: after)) none c).1.metadata = false := by
  simp [initDictionary, readTexts_fail hb hok]

example : (construct (fun l : List Nat => some l) (some 2000000) (some [[3, 1, 3], [], [2, 1]]) none true).map
    (fun c => (iterate (fun l : List Nat => some l) [[3, 1, 3], [], [2, 1]] c).1) =
    some [([(0, 1), (1, 2)], some 0), ([], some 1), ([(0, 1), (2, 1)], some 2)] := by decide

/-! ### UCI corpora -/

theorem uciVocab_eq {V : Type} (m : PyDict Nat Str) (docs : List (List (Nat × V))) :
    uciVocab (some m) docs = Formats.bleiVocab m := by
  unfold uciVocab Formats.bleiVocab
  simp only
  cases h : keys m <;> rfl

theorem uci_lines (n : Nat) (f : Nat → Str) (hw : ∀ i, Formats.Word (f i)) :
    uciId2word (((List.range n).map (fun i => f i ++ ['\n'])).flatten) =
      (List.range n).map (fun i => (i, Tok.bytes (f i))) := by
  have hlines : pyLines (((List.range n).map (fun i => f i ++ ['\n'])).flatten) =
      (List.range n).map (fun i => f i ++ ['\n']) := by
    have := pyLines_flatten (ls := (List.range n).map f) (by
      intro l hl
      obtain ⟨j, _, rfl⟩ := List.mem_map.mp hl
      intro h
      have := (hw j).2 _ h
      exact absurd this (by decide))
    rw [List.map_map] at this
    exact this
  unfold uciId2word
  rw [hlines]
  apply List.ext_getElem?
  intro j
  simp only [List.getElem?_map, List.getElem?_zipIdx, List.map_map]
  by_cases hj : j < n
  · simp only [List.getElem?_range hj, Option.map_some, Function.comp_apply, Nat.zero_add]
    rw [strip_append_ws (fun c hc => bws_of_uws_false ((hw j).2 c hc)) (by decide)]
  · have : (List.range n)[j]? = none := by simp; omega
    simp [this]

theorem get?_range_map {β : Type} (f : Nat → β) (n i : Nat) :
    get? ((List.range n).map (fun i => (i, f i))) i = if i < n then some (f i) else none := by
  have : ∀ l : List Nat, get? (l.map (fun i => (i, f i))) i = if i ∈ l then some (f i) else none := by
    intro l
    induction l with
    | nil => simp
    | cons a l ih =>
      rw [List.map_cons, get?_cons, ih]
      by_cases h : a = i
      · simp [h]
      · simp [h, Ne.symm h]
  rw [this]
  simp

/-- **C123.** Every id of the mapping that is given has its word in the vocabulary that is read back, as bytes, and the ids
without a word, up to the highest, have `---`. -/
theorem C123_uci_vocab {V : Type} (m : PyDict Nat Str) (hw : ∀ w ∈ values m, Formats.Word w) (docs : List (List (Nat × V)))
    (i : Nat) :
    get? (uciId2word (uciVocab (some m) docs)) i =
      if i ∈ keys m then (get? m i).map Tok.bytes
      else if ∃ k ∈ keys m, i < k then some (Tok.bytes ['-', '-', '-']) else none := by
  have hword : ∀ i, Formats.Word (getD m i ['-', '-', '-']) := by
    intro i
    unfold getD
    cases h : get? m i with
    | none => exact ⟨by simp, by decide⟩
    | some w => exact hw w (List.mem_map.mpr ⟨_, mem_of_get? h, rfl⟩)
  obtain ⟨n, hn⟩ : ∃ n, Formats.bleiVocab m = ((List.range n).map (fun i => getD m i ['-', '-', '-'] ++ ['\n'])).flatten :=
    ⟨_, rfl⟩
  have h24 := Formats.C24_vocab m hw i
  have hread : Formats.bleiReadVocab (Formats.bleiVocab m) =
      (List.range n).map (fun i => (i, getD m i ['-', '-', '-'])) := by
    have hlines : pyLines (Formats.bleiVocab m) = (List.range n).map (fun i => getD m i ['-', '-', '-'] ++ ['\n']) := by
      have := pyLines_flatten (ls := (List.range n).map (fun i => getD m i ['-', '-', '-'])) (by
        intro l hl
        obtain ⟨j, _, rfl⟩ := List.mem_map.mp hl
        intro h
        have := (hword j).2 _ h
        exact absurd this (by decide))
      rw [List.map_map] at this
      rw [hn]; exact this
    rw [Formats.bleiReadVocab, hlines]
    apply List.ext_getElem?
    intro j
    simp only [List.getElem?_map, List.getElem?_zipIdx, List.map_map]
    by_cases hj : j < n
    · simp only [List.getElem?_range hj, Option.map_some, Function.comp_apply, Nat.zero_add]
      rw [rstrip_append_ws (by decide), rstrip_of_not_ws (hword j).2]
    · have : (List.range n)[j]? = none := by simp; omega
      simp [this]
  rw [hread, get?_range_map] at h24
  rw [uciVocab_eq, hn, uci_lines n _ hword, get?_range_map (fun i => Tok.bytes (getD m i ['-', '-', '-']))]
  have : (if i < n then some (Tok.bytes (getD m i ['-', '-', '-'])) else none) =
      (if i < n then some (getD m i ['-', '-', '-']) else none).map Tok.bytes := by
    split <;> rfl
  rw [this, h24]
  split
  · rfl
  · split <;> rfl

theorem numTerms_gt {V : Type} (docs : List (List (Nat × V))) : ∀ doc ∈ docs, ∀ p ∈ doc, p.1 < numTerms docs := by
  have inner : ∀ (doc : List (Nat × V)) (n : Nat), n ≤ doc.foldl (fun n p => max n (p.1 + 1)) n ∧
      ∀ p ∈ doc, p.1 < doc.foldl (fun n p => max n (p.1 + 1)) n := by
    intro doc
    induction doc with
    | nil => intro n; simp
    | cons q doc ih =>
      intro n
      obtain ⟨h1, h2⟩ := ih (max n (q.1 + 1))
      simp only [List.foldl_cons]
      refine ⟨by omega, ?_⟩
      intro p hp
      rcases List.mem_cons.mp hp with rfl | hp
      · omega
      · exact h2 p hp
  have outer : ∀ (docs : List (List (Nat × V))) (n : Nat),
      n ≤ docs.foldl (fun n doc => doc.foldl (fun n p => max n (p.1 + 1)) n) n ∧
      ∀ doc ∈ docs, ∀ p ∈ doc, p.1 < docs.foldl (fun n doc => doc.foldl (fun n p => max n (p.1 + 1)) n) n := by
    intro docs
    induction docs with
    | nil => intro n; simp
    | cons d docs ih =>
      intro n
      obtain ⟨h1, h2⟩ := ih (d.foldl (fun n p => max n (p.1 + 1)) n)
      obtain ⟨h3, h4⟩ := inner d n
      simp only [List.foldl_cons]
      refine ⟨h3.trans h1, ?_⟩
      intro doc hd p hp
      rcases List.mem_cons.mp hd with rfl | hd
      · exact (h4 p hp).trans_le h1
      · exact h2 doc hd p hp
  exact (outer docs 0).2

/-- **C123.** Without a mapping, every id of the corpus has its decimal number as its word. -/
theorem C123_uci_numbers {V : Type} (docs : List (List (Nat × V))) :
    ∀ doc ∈ docs, ∀ p ∈ doc, get? (uciId2word (uciVocab none docs)) p.1 = some (Tok.bytes (showNat p.1)) := by
  intro doc hd p hp
  unfold uciVocab
  rw [uci_lines _ showNat (fun i => ⟨showNat_ne_nil i, fun c hc => not_ws_of_digit (showNat_digit i c hc)⟩),
    get?_range_map (fun i => Tok.bytes (showNat i)), if_pos (numTerms_gt docs doc hd p hp)]

theorem ofPairs_append {κ ν : Type} [DecidableEq κ] (ps : List (κ × ν)) (p : κ × ν) :
    ofPairs (ps ++ [p]) = set (ofPairs ps) p.1 p.2 := by
  simp [ofPairs]

/-- **C123.** In the dictionary of a UCI corpus, a word has the last of its ids (several ids have the same word if the
vocabulary has it several times, such as `---`). -/
theorem C123_uci_token2id (file : Str) (nd nn : Int) (docs : List (List (Nat × Nat))) (w : Tok) (i : Nat) :
    get? (createDictionary (uciId2word file) nd nn docs).token2id w = some i ↔
      get? (uciId2word file) i = some w ∧ ∀ j, get? (uciId2word file) j = some w → j ≤ i := by
  simp only [createDictionary]
  have gen : ∀ (ws : List Tok), (∀ i, get? (ws.zipIdx.map (fun p => (p.2, p.1))) i = ws[i]?) ∧
      ∀ w i, get? (ofPairs ((ws.zipIdx.map (fun p => (p.2, p.1))).map (fun p => (p.2, p.1)))) w = some i ↔
        ws[i]? = some w ∧ ∀ j : Nat, ws[j]? = some w → j ≤ i := by
    intro ws
    induction ws using List.reverseRecOn with
    | nil => simp [ofPairs]
    | append_singleton ws x ih =>
      obtain ⟨ih1, ih2⟩ := ih
      constructor
      · intro i
        rw [List.zipIdx_append, List.map_append, get?_append, ih1]
        simp only [List.zipIdx_cons, List.zipIdx_nil, List.map_cons, List.map_nil, get?_cons, get?_nil, Nat.zero_add]
        rcases lt_trichotomy i ws.length with h | h | h
        · rw [List.getElem?_append_left h, List.getElem?_eq_getElem h]; rfl
        · subst h; simp
        · rw [List.getElem?_eq_none (by omega), List.getElem?_eq_none (by simp; omega)]
          simp
          omega
      · intro w i
        rw [List.zipIdx_append, List.map_append, List.map_append]
        simp only [List.zipIdx_cons, List.zipIdx_nil, List.map_cons, List.map_nil, Nat.zero_add]
        rw [ofPairs_append]
        simp only
        by_cases hx : x = w
        · subst hx
          rw [get?_set_self]
          constructor
          · rintro h
            cases h
            refine ⟨by simp, ?_⟩
            intro j hj
            have := (List.getElem?_eq_some_iff.mp hj).1
            simp at this
            omega
          · rintro ⟨h1, h2⟩
            have h3 := h2 ws.length (by simp)
            have := (List.getElem?_eq_some_iff.mp h1).1
            simp at this
            congr 1
            omega
        · rw [get?_set_ne _ hx, ih2]
          have e : ∀ j : Nat, (ws ++ [x])[j]? = some w ↔ ws[j]? = some w := by
            intro j
            rcases lt_trichotomy j ws.length with h | h | h
            · rw [List.getElem?_append_left h]
            · subst h; simp [hx]
            · rw [List.getElem?_eq_none (by simp; omega), List.getElem?_eq_none (by omega)]
          simp only [e]
  obtain ⟨g1, g2⟩ := gen ((pyLines file).map (fun l => Tok.bytes (strip bws l)))
  unfold uciId2word
  rw [g2]
  simp only [g1]

theorem keys_counter (doc : List Tok) (c : PyDict Tok Nat) :
    ∀ w ∈ keys (doc.foldl (fun (c : PyDict Tok Nat) w => set c w (getD c w 0 + 1)) c), w ∈ keys c ∨ w ∈ doc := by
  induction doc generalizing c with
  | nil => intro w hw; exact .inl hw
  | cons x doc ih =>
    intro w hw
    rw [List.foldl_cons] at hw
    rcases ih _ w hw with h | h
    · rcases (mem_keys_set _ _ _ _).mp h with h | h
      · exact .inr (by simp [h])
      · exact .inl h
    · exact .inr (by simp [h])

/-- **C123, finding.** The dictionary of a UCI corpus finds no word: the words are kept as bytes and looked up as strings,
so the vector of every document, given as strings or as bytes, is empty. -/
theorem C123_uci_blind (file : Str) (nd nn : Int) (docs : List (List (Nat × Nat))) (document : List Tok) :
    uciBow (createDictionary (uciId2word file) nd nn docs) document = [] := by
  unfold uciBow
  simp only
  rw [List.filterMap_eq_nil_iff.mpr]
  · rfl
  · intro p hp
    have hk : p.1 ∈ document.map asStr := by
      rcases keys_counter _ [] p.1 (List.mem_map.mpr ⟨p, hp, rfl⟩) with h | h
      · simp at h
      · exact h
    obtain ⟨t, _, ht⟩ := List.mem_map.mp hk
    cases hg : get? (createDictionary (uciId2word file) nd nn docs).token2id p.1 with
    | none => rfl
    | some i =>
      exfalso
      have h1 := ((C123_uci_token2id file nd nn docs p.1 i).mp hg).1
      have h2 := mem_of_get? h1
      unfold uciId2word at h2
      simp only [List.mem_map, Prod.mk.injEq] at h2
      obtain ⟨q, hq, _, hq2⟩ := h2
      have h3 := List.fst_mem_of_mem_zipIdx hq
      rw [hq2] at h3
      simp only [List.mem_map] at h3
      obtain ⟨l, _, hl⟩ := h3
      rw [← ht] at hl
      cases t <;> simp [asStr] at hl

/-- with strings as words, they would be found -/
example : uciBow ⟨[(.str ['a'], 0)], [], [], 0, 0, 0⟩ [.bytes ['a'], .str ['b'], .str ['a']] = [(0, 2)] := by decide

theorem uciCount_spec (docs : List (List (Nat × Nat))) : ∀ (s : PyDict Nat Nat × Nat),
    (∀ i, getD (uciCount docs s).1 i 0 = getD s.1 i 0 + ((docs.flatten).filter (fun p => p.1 = i)).length) ∧
    (uciCount docs s).2 = s.2 + (docs.flatten.map Prod.snd).sum := by
  have inner : ∀ (doc : List (Nat × Nat)) (s : PyDict Nat Nat × Nat),
      (∀ i, getD (doc.foldl (fun s p => (set s.1 p.1 (getD s.1 p.1 0 + 1), s.2 + p.2)) s).1 i 0 =
        getD s.1 i 0 + (doc.filter (fun p => p.1 = i)).length) ∧
      (doc.foldl (fun s p => (set s.1 p.1 (getD s.1 p.1 0 + 1), s.2 + p.2)) s).2 = s.2 + (doc.map Prod.snd).sum := by
    intro doc
    induction doc with
    | nil => intro s; simp
    | cons q doc ih =>
      intro s
      obtain ⟨h1, h2⟩ := ih (set s.1 q.1 (getD s.1 q.1 0 + 1), s.2 + q.2)
      rw [List.foldl_cons]
      constructor
      · intro i
        rw [h1]
        by_cases h : q.1 = i
        · subst h
          simp [getD]
          omega
        · simp [getD, get?_set_ne _ h, List.filter_cons, h]
      · rw [h2]
        simp
        omega
  induction docs with
  | nil => intro s; simp [uciCount]
  | cons d docs ih =>
    intro s
    have e : uciCount (d :: docs) s =
        uciCount docs (d.foldl (fun s p => (set s.1 p.1 (getD s.1 p.1 0 + 1), s.2 + p.2)) s) := rfl
    rw [e]
    obtain ⟨h1, h2⟩ := ih (d.foldl (fun s p => (set s.1 p.1 (getD s.1 p.1 0 + 1), s.2 + p.2)) s)
    obtain ⟨h3, h4⟩ := inner d s
    constructor
    · intro i
      rw [h1, h3]
      simp
      omega
    · rw [h2, h4]
      simp
      omega

/-- **C123.** The document frequencies of the dictionary of a UCI corpus: the number of documents with the id, if no
document has an id twice; otherwise each entry counts.  The number of positions is the sum of the counts. -/
theorem C123_uci_counts (m : PyDict Nat Tok) (nd nn : Int) (docs : List (List (Nat × Nat))) :
    (∀ i, getD (createDictionary m nd nn docs).dfs i 0 = (docs.flatten.filter (fun p => p.1 = i)).length) ∧
    ((∀ doc ∈ docs, (doc.map Prod.fst).Nodup) → ∀ i, getD (createDictionary m nd nn docs).dfs i 0 =
      (docs.filter (fun doc => i ∈ doc.map Prod.fst)).length) ∧
    (createDictionary m nd nn docs).numPos = (docs.flatten.map Prod.snd).sum ∧
    (createDictionary m nd nn docs).numDocs = nd ∧ (createDictionary m nd nn docs).numNnz = nn := by
  have h := uciCount_spec docs ([], 0)
  have h1 : ∀ i, getD (createDictionary m nd nn docs).dfs i 0 = (docs.flatten.filter (fun p => p.1 = i)).length := by
    intro i
    have := h.1 i
    simpa [createDictionary, getD] using this
  refine ⟨h1, ?_, by simpa [createDictionary] using h.2, rfl, rfl⟩
  intro hn i
  rw [h1]
  clear h h1
  induction docs with
  | nil => rfl
  | cons d docs ih =>
    rw [List.flatten_cons, List.filter_append, List.length_append, ih (fun x hx => hn x (by simp [hx])), List.filter_cons]
    have hd : (d.filter (fun p => p.1 = i)).length = if i ∈ d.map Prod.fst then 1 else 0 := by
      have e : (d.filter (fun p => p.1 = i)).length = (d.map Prod.fst).count i := by
        rw [List.count_eq_countP, List.countP_map, List.countP_eq_length_filter]
        congr 2
      rw [e, List.Nodup.count (hn d (by simp))]
    rw [hd]
    by_cases hi : i ∈ d.map Prod.fst
    · simp only [hi, if_true, decide_true, List.length_cons]; omega
    · simp only [hi, if_false, decide_false, Bool.false_eq_true]; omega

/-- **C123.** `save_corpus` hands all the documents to the writer, if the corpus can be iterated repeatedly or a mapping is
given.  Finding: a generator without a mapping is used up by the search for the highest id, and no document is
written. -/
theorem C123_uci_generator {V : Type} (docs : List (List (Nat × V))) (m : PyDict Nat Str) :
    (uciSave false none docs).2 = docs ∧ (∀ oneShot, (uciSave oneShot (some m) docs).2 = docs) ∧
    (uciSave true none docs).2 = [] := by
  refine ⟨by simp [uciSave, pass], ?_, by simp [uciSave, pass]⟩
  intro oneShot
  simp [uciSave, pass]

example : (createDictionary (uciId2word (uciVocab (some [(0, ['a']), (3, ['b'])]) ([] : List (List (Nat × Nat))))) 2 3
    [[(0, 2), (3, 1)], [(3, 5)]]).token2id =
    [(.bytes ['a'], 0), (.bytes ['-', '-', '-'], 2), (.bytes ['b'], 3)] := by decide

example : (createDictionary [] 2 3 [[(0, 2), (3, 1)], [(3, 5)]]).dfs = [(0, 1), (3, 2)] := by decide

end Verif.TextCorpus.Text
