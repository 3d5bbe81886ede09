import Verif.Tfidf.Model
import Verif.Dictionary.MoreProps
import Verif.Matutils.NormProps
import Verif.Py.Count

/-! # Property C49: the TF-IDF model -/

namespace Verif.Tfidf
open Verif PyDict Matutils

/-! ### Specification -/

/-- the number of documents with an entry for term `i` -/
def docsWith {V : Type} (corpus : List (List (Nat × V))) (i : Nat) : Nat :=
  (corpus.filter fun doc => decide (i ∈ doc.map Prod.fst)).length

/-! ### Training -/

theorem getD_countDoc {V : Type} (doc : List (Nat × V)) (t : PyDict Nat Nat) (i : Nat) :
    getD (countDoc t doc) i 0 = getD t i 0 + (doc.map Prod.fst).count i := by
  unfold countDoc
  induction doc generalizing t with
  | nil => simp
  | cons p doc ih =>
    rw [List.foldl_cons, ih, List.map_cons, List.count_cons]
    by_cases h : p.1 = i
    · subst h; simp [getD, get?_set]; omega
    · simp [getD_set_ne _ h, h]

theorem mem_keys_countDoc {V : Type} (doc : List (Nat × V)) (t : PyDict Nat Nat) (i : Nat) :
    i ∈ keys (countDoc t doc) ↔ i ∈ keys t ∨ i ∈ doc.map Prod.fst := by
  unfold countDoc
  induction doc generalizing t with
  | nil => simp
  | cons p doc ih =>
    rw [List.foldl_cons, ih, mem_keys_set, List.map_cons, List.mem_cons]
    tauto

theorem WF_countDoc {V : Type} (doc : List (Nat × V)) (t : PyDict Nat Nat) (h : WF t) :
    WF (countDoc t doc) := by
  unfold countDoc
  induction doc generalizing t with
  | nil => exact h
  | cons p doc ih => exact ih _ (WF_set h _ _)

/-- **C49 (frequencies, in general)**: the document frequency of a term is the number of entries it has
in the corpus. -/
theorem dfs_entries {V : Type} (corpus : List (List (Nat × V))) (t : PyDict Nat Nat) (i : Nat) :
    getD (corpus.foldl countDoc t) i 0 =
      getD t i 0 + (corpus.map fun doc => (doc.map Prod.fst).count i).sum := by
  induction corpus generalizing t with
  | nil => simp
  | cons doc corpus ih => rw [List.foldl_cons, ih, getD_countDoc, List.map_cons, List.sum_cons]; omega

theorem keys_train {V : Type} (corpus : List (List (Nat × V))) (t : PyDict Nat Nat) (i : Nat) :
    i ∈ keys (corpus.foldl countDoc t) ↔ i ∈ keys t ∨ ∃ doc ∈ corpus, i ∈ doc.map Prod.fst := by
  induction corpus generalizing t with
  | nil => simp
  | cons doc corpus ih =>
    rw [List.foldl_cons, ih, mem_keys_countDoc]
    simp only [List.mem_cons, exists_eq_or_imp]
    tauto

theorem WF_train {V : Type} (corpus : List (List (Nat × V))) (t : PyDict Nat Nat) (h : WF t) :
    WF (corpus.foldl countDoc t) := by
  induction corpus generalizing t with
  | nil => exact h
  | cons doc corpus ih => exact ih _ (WF_countDoc doc t h)

theorem sum_count_nodup {V : Type} (corpus : List (List (Nat × V))) (i : Nat)
    (hn : ∀ doc ∈ corpus, (doc.map Prod.fst).Nodup) :
    (corpus.map fun doc => (doc.map Prod.fst).count i).sum = docsWith corpus i := by
  unfold docsWith
  induction corpus with
  | nil => rfl
  | cons doc corpus ih =>
    rw [List.map_cons, List.sum_cons, ih (fun d hd => hn d (List.mem_cons_of_mem _ hd)),
      List.filter_cons]
    have := hn doc List.mem_cons_self
    by_cases h : i ∈ doc.map Prod.fst
    · rw [if_pos (by simpa using h), List.length_cons, List.count_eq_one_of_mem this h]; omega
    · rw [if_neg (by simpa using h), List.count_eq_zero_of_not_mem h]; omega

theorem docsWith_pos {V : Type} (corpus : List (List (Nat × V))) (i : Nat) :
    0 < docsWith corpus i ↔ ∃ doc ∈ corpus, i ∈ doc.map Prod.fst := by
  unfold docsWith
  rw [List.length_pos_iff_exists_mem]
  simp only [List.mem_filter, decide_eq_true_eq]

theorem get?_precompute (wglobal : Nat → Nat → ℝ) (dfs : PyDict Nat Nat) (n i : Nat) :
    get? (precomputeIdfs wglobal dfs n) i = (get? dfs i).map fun df => wglobal df n := by
  unfold precomputeIdfs
  induction dfs with
  | nil => rfl
  | cons p dfs ih =>
    simp only [List.map_cons]
    obtain ⟨k, df⟩ := p
    unfold get?
    by_cases h : k = i
    · simp [h]
    · simp only [h, if_false]; exact ih

/-- **C49 (training)**: for documents without repeated ids, the model knows exactly the ids of the
corpus; each document frequency is the number of documents containing the id, each weight is the global
weighting function applied to it, and `num_docs`, `num_nnz` are exact. -/
theorem C49_document_frequencies {V : Type} (wglobal : Nat → Nat → ℝ) (corpus : List (List (Nat × V)))
    (hn : ∀ doc ∈ corpus, (doc.map Prod.fst).Nodup) :
    let s := train wglobal corpus
    (∀ i, get? s.dfs i = if 0 < docsWith corpus i then some (docsWith corpus i) else none) ∧
    (∀ i, get? s.idfs i =
      if 0 < docsWith corpus i then some (wglobal (docsWith corpus i) corpus.length) else none) ∧
    s.numDocs = corpus.length ∧ s.numNnz = (corpus.map List.length).sum := by
  intro s
  have hd : ∀ i, get? s.dfs i = if 0 < docsWith corpus i then some (docsWith corpus i) else none := by
    intro i
    have hk : i ∈ keys s.dfs ↔ 0 < docsWith corpus i := by
      rw [docsWith_pos]
      have := keys_train corpus [] i
      exact this.trans (by simp [keys])
    by_cases h : 0 < docsWith corpus i
    · rw [if_pos h, get?_eq_getD_of_mem (hk.2 h) 0]
      have := dfs_entries corpus [] i
      rw [sum_count_nodup corpus i hn] at this
      have e : getD s.dfs i 0 = docsWith corpus i := by
        have e2 : getD ([] : PyDict Nat Nat) i 0 = 0 := rfl
        rw [e2, Nat.zero_add] at this
        exact this
      rw [e]
    · rw [if_neg h, get?_eq_none_iff]
      exact fun hm => h (hk.1 hm)
  refine ⟨hd, ?_, rfl, rfl⟩
  intro i
  have : s.idfs = precomputeIdfs wglobal s.dfs corpus.length := rfl
  rw [this, get?_precompute, hd i]
  split <;> rfl

/-- With a repeated id inside a document the frequencies exceed the number of documents. -/
theorem C49_repeated_ids_overcount :
    get? (train (V := Nat) (fun _ _ => 0) [[(7, 1), (7, 1)]]).dfs 7 = some 2 := by
  unfold train countDoc
  decide

/-- **C49 (dictionary)**: the model of a `Dictionary` and the model trained on the vectors that
dictionary makes of its own documents have the same statistics and weights. -/
theorem C49_from_dictionary {τ : Type} [LinearOrder τ] (wglobal : Nat → Nat → ℝ) (docs : List (List τ))
    {d : Dictionary.Dct τ} (hd : Dictionary.addDocuments Dictionary.empty docs none = some d) :
    let a := fromDictionary wglobal d
    let b := train wglobal (docs.map (Dictionary.bow d))
    a.numDocs = b.numDocs ∧ a.numNnz = b.numNnz ∧ (∀ i, get? a.dfs i = get? b.dfs i) ∧
      ∀ i, get? a.idfs i = get? b.idfs i := by
  intro a b
  have hr : Dictionary.Reachable d := .addDocuments docs none .empty hd
  have hinv := hr.inv
  obtain ⟨its, hits⟩ : ∃ its, Dictionary.items d = some its := ⟨_, Dictionary.items_some hinv⟩
  obtain ⟨r1, r2, r3, r4, r5⟩ := Dictionary.C62_from_corpus_rebuilds docs hd hits
  rw [Dictionary.items_some hinv] at hits
  cases hits
  have hndw : ((d.token2id.map (fun p => (p.2, p.1))).map Prod.snd).Nodup := by
    simpa [Function.comp_def, WF, keys] using hinv.wf
  have hndi : ∀ v ∈ docs.map (Dictionary.bow d), (v.map Prod.fst).Nodup := by
    intro v hv
    obtain ⟨doc, -, rfl⟩ := List.mem_map.1 hv
    exact List.pairwise_map.mpr ((Dictionary.C02_doc2bow_exact hr doc).1.imp (fun h => Nat.ne_of_lt h))
  obtain ⟨c1, c2, c3, c4, c5⟩ :=
    Dictionary.C62_from_corpus_counts (docs.map (Dictionary.bow d)) _ hndw hndi
  obtain ⟨t1, t2, t3, t4⟩ := C49_document_frequencies wglobal (docs.map (Dictionary.bow d)) hndi
  have hdf : ∀ i, get? d.dfs i = get? b.dfs i := by
    intro i
    rw [t1 i]
    by_cases hi : i < d.token2id.length
    · have hv : i ∈ values d.token2id := (hinv.mem_values i).2 hi
      obtain ⟨⟨w, j⟩, hw, hj⟩ := List.mem_map.1 hv
      simp only at hj
      subst hj
      have hid : Dictionary.idOf d w = some j := get?_of_mem hinv.wf hw
      have e1 : Dictionary.dfOf d w = get? d.dfs j := by simp [Dictionary.dfOf, hid]
      have e2 := c2 j w (List.mem_map.2 ⟨(w, j), hw, rfl⟩)
      rw [r2 w, e1] at e2
      have e3 : Dictionary.idDocFreq (docs.map (Dictionary.bow d)) j =
          docsWith (docs.map (Dictionary.bow d)) j := rfl
      obtain ⟨d2, e, hkn, hst, -⟩ := Dictionary.C03_statistics_exact docs none (by simp)
      rw [hd] at e; cases e
      have hk : Dictionary.known d w := by simp [Dictionary.known, hid]
      obtain ⟨doc, hdoc, hwd⟩ := (hkn w).1 hk
      have hpos : 0 < docsWith (docs.map (Dictionary.bow d)) j := by
        rw [docsWith_pos]
        refine ⟨_, List.mem_map_of_mem hdoc, ?_⟩
        exact List.mem_map.2 ⟨(j, doc.count w),
          ((Dictionary.C02_doc2bow_exact hr doc).2 j _).2 ⟨w, hwd, hid, rfl⟩, rfl⟩
      rw [if_pos hpos, e2, e3]
    · rw [if_neg, get?_eq_none_iff, hinv.dfsKeys]
      · exact hi
      · rw [docsWith_pos]
        rintro ⟨v, hv, hm⟩
        obtain ⟨doc, -, rfl⟩ := List.mem_map.1 hv
        obtain ⟨⟨j, n⟩, hp, rfl⟩ := List.mem_map.1 hm
        obtain ⟨w, -, hid, -⟩ := ((Dictionary.C02_doc2bow_exact hr doc).2 j n).1 hp
        exact hi (Dictionary.idOf_lt hinv hid)
  refine ⟨?_, ?_, hdf, ?_⟩
  · exact r3.symm.trans c3
  · exact r5.symm.trans c4
  · intro i
    have e1 : a.idfs = precomputeIdfs wglobal d.dfs d.numDocs := rfl
    have e2 : b.idfs = precomputeIdfs wglobal b.dfs (docs.map (Dictionary.bow d)).length := rfl
    rw [e1, e2, get?_precompute, get?_precompute, hdf i, r3.symm.trans c3]

theorem transform_congr (m : Model) (a b : Stats) (h : ∀ i, get? a.idfs i = get? b.idfs i) (eps : ℝ)
    (bow : List (Nat × ℝ)) :
    transform { m with stats := a } eps bow = transform { m with stats := b } eps bow := by
  have hi : ∀ i, a.idf i = b.idf i := fun i => by simp only [Stats.idf, getD, h i]
  have hw : ∀ ids tfs, weigh a eps ids tfs = weigh b eps ids tfs := by
    intro ids tfs; simp only [weigh, hi]
  unfold transform
  simp only [hw]
  rfl

/-- **C49 (dictionary, vectors)**: so both models transform every vector alike, whatever the local
weighting, the normalisation and the pivot. -/
theorem C49_from_dictionary_vectors {τ : Type} [LinearOrder τ] (wglobal : Nat → Nat → ℝ)
    (docs : List (List τ)) {d : Dictionary.Dct τ}
    (hd : Dictionary.addDocuments Dictionary.empty docs none = some d) (m : Model) (eps : ℝ)
    (bow : List (Nat × ℝ)) :
    transform { m with stats := fromDictionary wglobal d } eps bow =
      transform { m with stats := train wglobal (docs.map (Dictionary.bow d)) } eps bow :=
  transform_congr m _ _ (C49_from_dictionary wglobal docs hd).2.2.2 eps bow

/-! ### Transformation -/

theorem weigh_ids (s : Stats) (eps : ℝ) (ids : List Nat) (tfs : List ℝ) :
    (weigh s eps ids tfs).map Prod.fst =
      ((ids.zip tfs).filter fun p => decide (eps < |s.idf p.1|)).map Prod.fst := by
  unfold weigh; rw [List.map_map]; rfl

theorem zip_fst_sublist (ids : List Nat) (tfs : List ℝ) : ((ids.zip tfs).map Prod.fst).Sublist ids := by
  induction ids generalizing tfs with
  | nil => simp
  | cons i ids ih =>
    cases tfs with
    | nil => simp
    | cons t tfs => simp only [List.zip_cons_cons, List.map_cons]; exact (ih tfs).cons_cons i

theorem unitvec_ids {norm : Norm} {v r : List (Nat × ℝ)} (h : unitvecSparse norm v = some r) :
    r.map Prod.fst = v.map Prod.fst := by
  cases v with
  | nil => simp only [unitvecSparse, Option.some.injEq] at h; subst h; rfl
  | cons p v =>
    simp only [unitvecSparse] at h
    split at h
    · rw [Option.some.injEq] at h
      subst h
      rw [retNormalized_eq, List.map_map]; rfl
    · cases h

/-- **C49 (ids)**: whatever the weighting, normalisation and pivot, the transformed vector has ids of the
input, in the input's order, each with a stored weight above `eps`: unknown terms are dropped. -/
theorem C49_ids_order (m : Model) (eps : ℝ) (bow r : List (Nat × ℝ)) (h : transform m eps bow = some r)
    (heps : 0 ≤ eps) :
    (r.map Prod.fst).Sublist (bow.map Prod.fst) ∧
    ∀ p ∈ r, eps < |p.2| ∧ ∃ w, get? m.stats.idfs p.1 = some w ∧ eps < |w| := by
  unfold transform at h
  rw [Option.bind_eq_some_iff] at h
  obtain ⟨tfs, -, h⟩ := h
  have key : ∃ u : List (Nat × ℝ), u.map Prod.fst = (weigh m.stats eps (bow.map Prod.fst) tfs).map Prod.fst ∧
      r = u.filter fun p => decide (eps < |p.2|) := by
    dsimp only at h
    cases hp : m.pivot with
    | none =>
      rw [hp] at h
      simp only [Option.map_eq_some_iff] at h
      obtain ⟨u, hu, rfl⟩ := h
      refine ⟨u, ?_, rfl⟩
      unfold normalized at hu
      split at hu
      · rw [Option.some.injEq] at hu; rw [hu]
      · exact unitvec_ids hu
      · split at hu
        · exact unitvec_ids hu
        · rw [Option.some.injEq] at hu; rw [hu]
    | some pv =>
      rw [hp] at h
      simp only [Option.map_eq_some_iff] at h
      obtain ⟨old, -, rfl⟩ := h
      exact ⟨_, by rw [List.map_map]; rfl, rfl⟩
  obtain ⟨u, hu, rfl⟩ := key
  constructor
  · refine (List.filter_sublist.map _).trans ?_
    rw [hu, weigh_ids]
    exact (List.filter_sublist.map _).trans (zip_fst_sublist _ _)
  · intro p hp
    rw [List.mem_filter] at hp
    refine ⟨by simpa using hp.2, ?_⟩
    have hm : p.1 ∈ (weigh m.stats eps (bow.map Prod.fst) tfs).map Prod.fst := by
      rw [← hu]; exact List.mem_map_of_mem hp.1
    rw [weigh_ids] at hm
    obtain ⟨q, hq, he⟩ := List.mem_map.1 hm
    rw [List.mem_filter] at hq
    have h2 : eps < |m.stats.idf q.1| := by simpa using hq.2
    rw [he] at h2
    unfold Stats.idf getD at h2
    cases hg : get? m.stats.idfs p.1 with
    | none => rw [hg] at h2; simp at h2; linarith
    | some w => rw [hg] at h2; exact ⟨w, rfl, h2⟩

/-- **C49 (normalised)**: with `normalize=True` (or SMART code `..c`) and no zero term weights, the
result is empty if no term is known, and otherwise the known terms with weights `tf * idf` divided by
their Euclidean norm — a unit vector — without the weights that are negligible after that. -/
theorem C49_unit_or_empty (m : Model) (eps : ℝ) (heps : 0 ≤ eps) (bow : List (Nat × ℝ)) (tfs : List ℝ)
    (hw : m.wlocal (bow.map Prod.snd) = some tfs) (hz : ∀ t ∈ tfs, t ≠ 0) (hp : m.pivot = none)
    (hn : m.normalizer = .unit ∨ m.normalizer = .smart 'c') :
    let known := ((bow.map Prod.fst).zip tfs).filter fun p => decide (eps < |m.stats.idf p.1|)
    if known = [] then transform m eps bow = some []
    else ∃ c > 0,
      transform m eps bow = some ((known.map fun p => (p.1, p.2 * m.stats.idf p.1 / c)).filter
        fun p => decide (eps < |p.2|)) ∧
      normOf .l2 (known.map fun p => p.2 * m.stats.idf p.1 / c) = 1 := by
  intro known
  have ht : transform m eps bow =
      (unitvecSparse .l2 (known.map fun p => (p.1, p.2 * m.stats.idf p.1))).map
        fun r => r.filter fun p => decide (eps < |p.2|) := by
    unfold transform
    rw [hw, hp]
    dsimp only [Option.bind_some]
    have : normalized m.normalizer (weigh m.stats eps (bow.map Prod.fst) tfs) =
        unitvecSparse .l2 (weigh m.stats eps (bow.map Prod.fst) tfs) := by
      rcases hn with h | h <;> rw [h] <;> simp [normalized]
    rw [this]
    rfl
  split
  · rename_i h
    rw [ht, h]; rfl
  · rename_i h
    obtain ⟨q, hq⟩ := List.exists_mem_of_ne_nil _ h
    have hq' := List.mem_filter.1 hq
    have h1 : q.2 ≠ 0 := hz _ (List.of_mem_zip hq'.1).2
    have h2 : m.stats.idf q.1 ≠ 0 := by
      have : eps < |m.stats.idf q.1| := by simpa using hq'.2
      intro h0; rw [h0, abs_zero] at this; linarith
    obtain ⟨r, c, hr, hc, he, hnorm⟩ := C20_sparse_unit .l2 (by decide)
      (known.map fun p => (p.1, p.2 * m.stats.idf p.1))
      ⟨_, List.mem_map_of_mem hq, mul_ne_zero h1 h2⟩
    refine ⟨c, hc, ?_, ?_⟩
    · rw [ht, hr, he, List.map_map]; rfl
    · rw [he, List.map_map, List.map_map] at hnorm; exact hnorm

/-- **C49 (not normalised)**: with `normalize=False` the weights are `tf * idf` as they are. -/
theorem C49_plain (m : Model) (eps : ℝ) (bow : List (Nat × ℝ)) (tfs : List ℝ)
    (hw : m.wlocal (bow.map Prod.snd) = some tfs) (hp : m.pivot = none)
    (hn : m.normalizer = .plain) :
    transform m eps bow = some
      (((((bow.map Prod.fst).zip tfs).filter fun p => decide (eps < |m.stats.idf p.1|)).map
        fun p => (p.1, p.2 * m.stats.idf p.1)).filter fun p => decide (eps < |p.2|)) := by
  unfold transform
  rw [hw, hp, hn]
  rfl

/-- **C49 (pivot)**: with a pivot, a vector whose norm equals the pivot is normalised as without one. -/
theorem C49_pivot_fixed_point (m : Model) (eps : ℝ) (heps : 0 ≤ eps) (bow : List (Nat × ℝ))
    (tfs : List ℝ) (hw : m.wlocal (bow.map Prod.snd) = some tfs) (hz : ∀ t ∈ tfs, t ≠ 0)
    (hn : m.normalizer = .unit)
    (hne : weigh m.stats eps (bow.map Prod.fst) tfs ≠ []) :
    let pivot := normOf .l2 ((weigh m.stats eps (bow.map Prod.fst) tfs).map Prod.snd)
    transform { m with pivot := some pivot } eps bow = transform { m with pivot := none } eps bow := by
  intro pivot
  unfold transform
  dsimp only
  rw [hw, hn]
  dsimp only [Option.bind_some, oldNorm, normalized]
  generalize hv : weigh m.stats eps (bow.map Prod.fst) tfs = v at hne
  have hpos : 0 < sparseLen .l2 v := by
    rw [sparseLen_eq]
    refine lt_of_le_of_ne (normOf_nonneg _ _) (fun h => ?_)
    have h0 := (normOf_eq_zero .l2 (by decide) _).1 h.symm
    obtain ⟨q, hq⟩ := List.exists_mem_of_ne_nil _ hne
    have := h0 q.2 (List.mem_map_of_mem hq)
    rw [← hv] at hq
    unfold weigh at hq
    obtain ⟨p, hp, rfl⟩ := List.mem_map.1 hq
    have hp' := List.mem_filter.1 hp
    have h1 : p.2 ≠ 0 := hz _ (List.of_mem_zip hp'.1).2
    have h2 : m.stats.idf p.1 ≠ 0 := by
      have : eps < |m.stats.idf p.1| := by simpa using hp'.2
      intro h0; rw [h0, abs_zero] at this; linarith
    exact mul_ne_zero h1 h2 this
  have e1 : normOrOne .l2 v = some (sparseLen .l2 v) := by
    cases v with
    | nil => exact absurd rfl hne
    | cons q v => unfold normOrOne; dsimp only; rw [if_pos hpos]
  have e2 : unitvecSparse .l2 v = some (v.map fun p => (p.1, p.2 / sparseLen .l2 v)) := by
    cases v with
    | nil => exact absurd rfl hne
    | cons q v => unfold unitvecSparse; dsimp only; rw [if_pos hpos, retNormalized_eq]
  have e3 : pivot = sparseLen .l2 v := by rw [sparseLen_eq, ← hv]
  rw [e1, e2, e3]
  simp only [Option.map_some, Option.some.injEq]
  congr 1
  apply List.map_congr_left
  intro p _
  rw [show (1 - m.slope) * sparseLen .l2 v + m.slope * sparseLen .l2 v = sparseLen .l2 v by ring]

/-- an explicit zero frequency of a known term is not accepted: AssertionError in `unitvec` -/
theorem C49_zero_frequency_raises :
    transform ⟨⟨2, 1, [(0, 1)], [(0, 1)]⟩, some, .unit, none, 0, none⟩ 0 [(0, 0)] = none := by
  simp [transform, weigh, Stats.idf, getD, get?, normalized, unitvecSparse, sparseLen, pySum]

/-- an empty document cannot be transformed with augmented frequencies (SMART code `a..`) -/
theorem C49_augmented_empty_raises (s : Stats) (n : Normalizer) (p : Option ℝ) (eps slope : ℝ)
    (l : Option (PyDict Nat Nat)) :
    transform ⟨s, smartLocal 'a', n, p, slope, l⟩ eps [] = none := rfl

/-- byte-size normalisation (SMART code `..b`) cannot be used with a corpus and no dictionary … -/
theorem C49_byte_length_needs_dictionary (s : Stats) (lens : PyDict Nat Nat) :
    smartPivot (τ := Nat) 'b' s none lens = none ∧
    smartPivot (τ := Nat) 'u' s none lens ≠ none := by
  constructor
  · simp [smartPivot]
  · simp [smartPivot]

/-- … and with a pivot given by the user, the constructor succeeds but every transformation raises, also
that of an empty document. -/
theorem C49_byte_length_pivot_raises (s : Stats) (wl : List ℝ → Option (List ℝ)) (p slope eps : ℝ)
    (bow : List (Nat × ℝ)) : transform ⟨s, wl, .smart 'b', some p, slope, none⟩ eps bow = none := by
  unfold transform oldNorm
  cases h : wl (bow.map Prod.snd) <;> simp [h]

/-- `normalize=False` cannot be combined with a pivot. -/
theorem C49_plain_pivot_raises (s : Stats) (wl : List ℝ → Option (List ℝ)) (p slope eps : ℝ)
    (l : Option (PyDict Nat Nat)) (bow : List (Nat × ℝ)) :
    transform ⟨s, wl, .plain, some p, slope, l⟩ eps bow = none := by
  unfold transform oldNorm
  cases h : wl (bow.map Prod.snd) <;> simp [h]

/-- A concrete transformation with a unit result and an unknown term (7) dropped: weights 3 and 4. -/
example : transform ⟨⟨2, 2, [(0, 1), (5, 1)], [(0, 1), (5, 2)]⟩, some, .unit, none, 0, none⟩ 0
    [(0, 3), (7, 9), (5, 2)] = some [(0, 3 / 5), (5, 4 / 5)] := by
  have e : √((3 : ℝ) ^ 2 + 4 ^ 2) = 5 := by
    rw [show (3 : ℝ) ^ 2 + 4 ^ 2 = 5 ^ 2 by norm_num]; exact Real.sqrt_sq (by norm_num)
  have e' : √(9 + 4 ^ 2 : ℝ) = 5 := by
    rw [← e]; norm_num
  simp only [transform, weigh, Stats.idf, getD, get?, normalized, unitvecSparse, sparseLen, pySum,
    retNormalized]
  norm_num [e', List.filter_cons, List.zip]
  rw [show √(25 : ℝ) = 5 by rw [show (25 : ℝ) = 5 ^ 2 by norm_num]; exact Real.sqrt_sq (by norm_num)]
  norm_num [List.filter_cons]

/-! ### Weights -/

/-- **C49 (idf)**: the default inverse document frequency of a term occurring in `df` of `total`
documents is non-negative, zero exactly for terms in all documents, and decreases with `df`. -/
theorem C49_idf (df total : Nat) (h0 : 0 < df) (h1 : df ≤ total) :
    0 ≤ df2idf df total ∧ (df2idf df total = 0 ↔ df = total) ∧
    ∀ df', df < df' → df' ≤ total → df2idf df' total < df2idf df total := by
  have hd : (0 : ℝ) < df := by exact_mod_cast h0
  have ht : (0 : ℝ) < total := by exact_mod_cast (by omega : 0 < total)
  have hl : 0 < Real.log 2 := Real.log_pos (by norm_num)
  have h1' : (df : ℝ) ≤ total := by exact_mod_cast h1
  have hq : 1 ≤ (total : ℝ) / df := (one_le_div hd).2 h1'
  refine ⟨div_nonneg (Real.log_nonneg hq) hl.le, ?_, ?_⟩
  · unfold df2idf
    rw [div_eq_zero_iff, or_iff_left hl.ne']
    constructor
    · intro h
      by_contra hne
      have : (df : ℝ) < total := by exact_mod_cast lt_of_le_of_ne h1 hne
      have := Real.log_pos ((one_lt_div hd).2 this)
      linarith
    · rintro rfl
      rw [div_self hd.ne', Real.log_one]
  · intro df' h2 h3
    have hd' : (0 : ℝ) < df' := by exact_mod_cast (by omega : 0 < df')
    unfold df2idf
    refine div_lt_div_of_pos_right (Real.log_lt_log (div_pos ht hd') ?_) hl
    exact div_lt_div_of_pos_left ht hd (by exact_mod_cast h2)

/-- **C49**: a term that occurs in every training document never appears in a transformed vector. -/
theorem C49_ubiquitous_dropped {V : Type} (corpus : List (List (Nat × V)))
    (hn : ∀ doc ∈ corpus, (doc.map Prod.fst).Nodup) (hne : corpus ≠ []) (i : Nat)
    (hi : ∀ doc ∈ corpus, i ∈ doc.map Prod.fst) (m : Model) (hm : m.stats = train df2idf corpus)
    (eps : ℝ) (heps : 0 ≤ eps) (bow r : List (Nat × ℝ)) (h : transform m eps bow = some r) :
    i ∉ r.map Prod.fst := by
  intro hmem
  obtain ⟨p, hp, rfl⟩ := List.mem_map.1 hmem
  obtain ⟨-, w, hw, hew⟩ := (C49_ids_order m eps bow r h heps).2 p hp
  rw [hm, (C49_document_frequencies df2idf corpus hn).2.1] at hw
  have hall : docsWith corpus p.1 = corpus.length := by
    unfold docsWith
    rw [List.filter_eq_self.2]
    intro doc hd; simpa using hi doc hd
  have hpos : 0 < corpus.length := List.length_pos_iff.2 hne
  rw [hall, if_pos hpos, Option.some.injEq] at hw
  have := ((C49_idf corpus.length corpus.length hpos le_rfl).2.1).2 rfl
  rw [← hw, this, abs_zero] at hew
  linarith

/-! ### SMART codes -/

/-- **C49 (codes)**: `resolve_weights` accepts exactly the strings of three letters from the documented
sets; its result is a code without aliases (`t`, `x`), which it leaves alone. -/
theorem C49_resolve_weights (s : List Char) :
    ((resolveWeights s).isSome = true ↔ ∃ a b c, s = [a, b, c] ∧ a ∈ ['b', 't', 'n', 'a', 'l', 'd', 'L'] ∧
      b ∈ ['x', 'n', 'f', 't', 'p'] ∧ c ∈ ['x', 'n', 'c', 'u', 'b']) ∧
    ∀ r, resolveWeights s = some r →
      (∃ a b c, r = [a, b, c] ∧ a ∈ ['b', 'n', 'a', 'l', 'd', 'L'] ∧ b ∈ ['n', 'f', 't', 'p'] ∧
        c ∈ ['n', 'c', 'u', 'b']) ∧
      resolveWeights r = some r ∧
      ((∃ a b c, s = [a, b, c] ∧ a ≠ 't' ∧ b ≠ 'x' ∧ c ≠ 'x') → r = s) := by
  have char : ∀ r, resolveWeights s = some r ↔ ∃ a b c, s = [a, b, c] ∧
      a ∈ ['b', 't', 'n', 'a', 'l', 'd', 'L'] ∧ b ∈ ['x', 'n', 'f', 't', 'p'] ∧
      c ∈ ['x', 'n', 'c', 'u', 'b'] ∧
      r = [if a = 't' then 'n' else a, if b = 'x' then 'n' else b, if c = 'x' then 'n' else c] := by
    intro r
    constructor
    · intro h
      unfold resolveWeights at h
      split at h
      · rename_i a b c
        split at h
        · rename_i h1
          split at h
          · rename_i h2
            split at h
            · rename_i h3
              rw [Option.some.injEq] at h
              rw [List.contains_iff_mem] at h1 h2 h3
              exact ⟨a, b, c, rfl, h1, h2, h3, h.symm⟩
            · cases h
          · cases h
        · cases h
      · cases h
    · rintro ⟨a, b, c, rfl, h1, h2, h3, rfl⟩
      rw [← List.contains_iff_mem] at h1 h2 h3
      unfold resolveWeights
      simp only [h1, h2, h3, if_true]
  constructor
  · rw [Option.isSome_iff_exists]
    constructor
    · rintro ⟨r, hr⟩
      obtain ⟨a, b, c, h, h1, h2, h3, -⟩ := (char r).1 hr
      exact ⟨a, b, c, h, h1, h2, h3⟩
    · rintro ⟨a, b, c, h, h1, h2, h3⟩
      exact ⟨_, (char _).2 ⟨a, b, c, h, h1, h2, h3, rfl⟩⟩
  · intro r hr
    obtain ⟨a, b, c, h, h1, h2, h3, rfl⟩ := (char r).1 hr
    have ha : (if a = 't' then 'n' else a) ∈ ['b', 'n', 'a', 'l', 'd', 'L'] := by
      simp only [List.mem_cons, List.not_mem_nil, or_false] at h1
      rcases h1 with rfl | rfl | rfl | rfl | rfl | rfl | rfl <;> decide
    have hb : (if b = 'x' then 'n' else b) ∈ ['n', 'f', 't', 'p'] := by
      simp only [List.mem_cons, List.not_mem_nil, or_false] at h2
      rcases h2 with rfl | rfl | rfl | rfl | rfl <;> decide
    have hc : (if c = 'x' then 'n' else c) ∈ ['n', 'c', 'u', 'b'] := by
      simp only [List.mem_cons, List.not_mem_nil, or_false] at h3
      rcases h3 with rfl | rfl | rfl | rfl | rfl <;> decide
    refine ⟨⟨_, _, _, rfl, ha, hb, hc⟩, ?_, ?_⟩
    · generalize (if a = 't' then 'n' else a) = a' at ha ⊢
      generalize (if b = 'x' then 'n' else b) = b' at hb ⊢
      generalize (if c = 'x' then 'n' else c) = c' at hc ⊢
      simp only [List.mem_cons, List.not_mem_nil, or_false] at ha hb hc
      rcases ha with rfl | rfl | rfl | rfl | rfl | rfl <;> rcases hb with rfl | rfl | rfl | rfl <;>
        rcases hc with rfl | rfl | rfl | rfl <;> decide
    · rintro ⟨a', b', c', h', n1, n2, n3⟩
      rw [h] at h'
      simp only [List.cons.injEq, and_true] at h'
      obtain ⟨rfl, rfl, rfl⟩ := h'
      rw [h, if_neg n1, if_neg n2, if_neg n3]

example : resolveWeights ['t', 'x', 'c'] = some ['n', 'n', 'c'] := by decide
example : resolveWeights ['n', 'n', 'c', '.', 'n', 'n', 'c'] = none := by decide

end Verif.Tfidf
