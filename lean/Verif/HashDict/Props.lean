import Mathlib.Data.Nat.Basic
import Mathlib.Data.List.Dedup
import Mathlib.Tactic.Common
import Verif.HashDict.Model

/-! Property C10: HashDictionary. -/

namespace Verif.HashDict
open Verif PyDict

variable {τ : Type} [LinearOrder τ]

/-! ### Specification -/

/-- the number of tokens of `doc` whose id is `i` -/
def idCount (c : Cfg τ) (doc : List τ) (i : Nat) : Nat := doc.countP (fun w => decide (c.id w = i))

/-- the number of documents with a token whose id is `i` -/
def idDocFreq (c : Cfg τ) (docs : List (List τ)) (i : Nat) : Nat :=
  docs.countP (fun doc => doc.any (fun w => decide (c.id w = i)))

/-- the number of documents that contain `w` -/
def docFreq (docs : List (List τ)) (w : τ) : Nat := docs.countP (fun doc => decide (w ∈ doc))

/-- the ids of a document, each once -/
def idsOf (c : Cfg τ) (doc : List τ) : List Nat := (doc.map c.id).dedup

/-! ### The loop -/

def foldGroups (c : Cfg τ) (s : St τ) (gs : List (τ × Nat)) : St τ × PyDict Nat Nat :=
  gs.foldl (oneGroup c) (s, [])

theorem fold_snd (c : Cfg τ) (gs : List (τ × Nat)) (s : St τ × PyDict Nat Nat) :
    (gs.foldl (oneGroup c) s).2 = accum s.2 (gs.map (fun g => (c.id g.1, g.2))) := by
  induction gs generalizing s with
  | nil => rfl
  | cons g gs ih =>
    rw [List.foldl_cons, ih, List.map_cons, accum_cons]
    congr 1
    unfold oneGroup
    by_cases h : c.debug = true <;> simp [h]

theorem fold_fst_nodebug (c : Cfg τ) (hd : c.debug = false) (gs : List (τ × Nat))
    (s : St τ × PyDict Nat Nat) : (gs.foldl (oneGroup c) s).1 = s.1 := by
  induction gs generalizing s with
  | nil => rfl
  | cons g gs ih => rw [List.foldl_cons, ih]; simp [oneGroup, note, hd]

/-- `token2id` after the loop -/
def noteIds (c : Cfg τ) (t : PyDict τ Nat) (ws : List τ) : PyDict τ Nat :=
  ws.foldl (fun t w => set t w (c.id w)) t

/-- `id2token` after the loop -/
def noteSets (c : Cfg τ) (t : PyDict Nat (List τ)) (ws : List τ) : PyDict Nat (List τ) :=
  ws.foldl (fun t w => set t (c.id w) (setAdd (getD t (c.id w) []) w)) t

theorem fold_fst_debug (c : Cfg τ) (hd : c.debug = true) (gs : List (τ × Nat))
    (s : St τ × PyDict Nat Nat) : (gs.foldl (oneGroup c) s).1 =
      { s.1 with token2id := noteIds c s.1.token2id (gs.map Prod.fst)
                 id2token := noteSets c s.1.id2token (gs.map Prod.fst)
                 dfsDebug := accum s.1.dfsDebug (gs.map (fun g => (g.1, 1))) } := by
  induction gs generalizing s with
  | nil => rfl
  | cons g gs ih => rw [List.foldl_cons, ih]; simp [oneGroup, note, hd, accum_cons, noteIds, noteSets]

theorem get?_noteIds (c : Cfg τ) (t : PyDict τ Nat) (ws : List τ) (w : τ) :
    get? (noteIds c t ws) w = if w ∈ ws then some (c.id w) else get? t w := by
  induction ws generalizing t with
  | nil => simp [noteIds]
  | cons x ws ih =>
    show get? (noteIds c (set t x (c.id x)) ws) w = _
    rw [ih]
    by_cases e : x = w
    · subst e; simp
    · have e' : ¬ w = x := fun h => e h.symm
      simp [get?_set_ne _ e, e']

theorem WF_noteIds (c : Cfg τ) {t : PyDict τ Nat} (h : WF t) (ws : List τ) : WF (noteIds c t ws) := by
  induction ws generalizing t with
  | nil => exact h
  | cons x ws ih => exact ih (WF_set h _ _)

theorem WF_noteSets (c : Cfg τ) {t : PyDict Nat (List τ)} (h : WF t) (ws : List τ) :
    WF (noteSets c t ws) := by
  induction ws generalizing t with
  | nil => exact h
  | cons x ws ih => exact ih (WF_set h _ _)

theorem mem_setAdd (s : List τ) (w x : τ) : x ∈ setAdd s w ↔ x = w ∨ x ∈ s := by
  unfold setAdd
  split
  · next h => constructor
              · exact Or.inr
              · rintro (rfl | h') <;> assumption
  · simp [or_comm]

theorem nodup_setAdd {s : List τ} (h : s.Nodup) (w : τ) : (setAdd s w).Nodup := by
  unfold setAdd
  split
  · exact h
  · next hn => rw [List.nodup_append]; simp [h]; rintro a ha rfl; exact hn ha

theorem mem_noteSets (c : Cfg τ) (t : PyDict Nat (List τ)) (ws : List τ) (i : Nat) (w : τ) :
    w ∈ getD (noteSets c t ws) i [] ↔ (w ∈ ws ∧ c.id w = i) ∨ w ∈ getD t i [] := by
  induction ws generalizing t with
  | nil => simp [noteSets]
  | cons x ws ih =>
    show w ∈ getD (noteSets c (set t (c.id x) (setAdd (getD t (c.id x) []) x)) ws) i [] ↔ _
    rw [ih]
    by_cases e : c.id x = i
    · subst e
      rw [getD_set_self, mem_setAdd, List.mem_cons]
      constructor
      · rintro (⟨h1, h2⟩ | rfl | h)
        · exact Or.inl ⟨Or.inr h1, h2⟩
        · exact Or.inl ⟨Or.inl rfl, rfl⟩
        · exact Or.inr h
      · rintro (⟨rfl | h1, h2⟩ | h)
        · exact Or.inr (Or.inl rfl)
        · exact Or.inl ⟨h1, h2⟩
        · exact Or.inr (Or.inr h)
    · rw [getD_set_ne _ e, List.mem_cons]
      constructor
      · rintro (⟨h1, h2⟩ | h)
        · exact Or.inl ⟨Or.inr h1, h2⟩
        · exact Or.inr h
      · rintro (⟨rfl | h1, h2⟩ | h)
        · exact absurd h2 e
        · exact Or.inl ⟨h1, h2⟩
        · exact Or.inr h

theorem nodup_noteSets (c : Cfg τ) {t : PyDict Nat (List τ)} (h : ∀ i, (getD t i []).Nodup)
    (ws : List τ) (i : Nat) : (getD (noteSets c t ws) i []).Nodup := by
  induction ws generalizing t with
  | nil => exact h i
  | cons x ws ih =>
    apply ih
    intro j
    by_cases e : c.id x = j
    · subst e; rw [getD_set_self]; exact nodup_setAdd (h _) _
    · rw [getD_set_ne _ e]; exact h j

/-! ### The vector -/

def sorted (doc : List τ) : List τ := pySort (fun a b => decide (a ≤ b)) doc

theorem sorted_perm (doc : List τ) : (sorted doc).Perm doc := pySort_perm _ _

theorem sorted_pairwise (doc : List τ) : (sorted doc).Pairwise (fun a b => decide (a ≤ b) = true) := by
  apply pySort_sorted
  · intro a b; simp only [decide_eq_true_eq]; exact le_total a b
  · intro a b d; simp only [decide_eq_true_eq]; exact le_trans

theorem groups_spec (doc : List τ) :
    ((groupRuns (sorted doc)).map Prod.fst).Nodup ∧
    (∀ w, w ∈ (groupRuns (sorted doc)).map Prod.fst ↔ w ∈ doc) := by
  refine ⟨(groupRuns_sorted (le := fun a b => decide (a ≤ b)) ?_ _ (sorted_pairwise doc)).1, ?_⟩
  · intro a b; simp only [decide_eq_true_eq]; exact le_antisymm
  · intro w; rw [mem_groupRuns_fst]; exact (sorted_perm doc).mem_iff

/-- the dictionary `result` of `doc2bow` -/
def resultOf (c : Cfg τ) (doc : List τ) : PyDict Nat Nat :=
  accum [] ((groupRuns (sorted doc)).map (fun g => (c.id g.1, g.2)))

theorem WF_resultOf (c : Cfg τ) (doc : List τ) : WF (resultOf c doc) := WF_accum WF_nil _

theorem getD_resultOf (c : Cfg τ) (doc : List τ) (i : Nat) : getD (resultOf c doc) i 0 = idCount c doc i := by
  unfold resultOf
  rw [getD_accum]
  unfold weight
  rw [List.map_map]
  have := sum_groupRuns_if (fun w => decide (c.id w = i)) (sorted doc)
  rw [(sorted_perm doc).countP_eq] at this
  unfold idCount
  rw [← this]
  simp [getD, Function.comp_def]

theorem mem_keys_resultOf (c : Cfg τ) (doc : List τ) (i : Nat) :
    i ∈ keys (resultOf c doc) ↔ ∃ w ∈ doc, c.id w = i := by
  unfold resultOf
  rw [mem_keys_accum]
  simp only [keys_nil, List.not_mem_nil, false_or, List.map_map, List.mem_map]
  constructor
  · rintro ⟨g, hg, rfl⟩
    exact ⟨g.1, ((groups_spec doc).2 g.1).mp (List.mem_map.mpr ⟨g, hg, rfl⟩), rfl⟩
  · rintro ⟨w, hw, rfl⟩
    obtain ⟨g, hg, rfl⟩ := List.mem_map.mp (((groups_spec doc).2 w).mpr hw)
    exact ⟨g, hg, rfl⟩

theorem doc2bow_snd (c : Cfg τ) (s : St τ) (doc : List τ) :
    (doc2bow c s doc).2 = pySort (fun a b => decide (a.1 ≤ b.1)) (resultOf c doc) := by
  unfold doc2bow
  simp only
  rw [fold_snd]
  rfl

/-- the state after `doc2bow` in debug mode -/
theorem doc2bow_fst_debug (c : Cfg τ) (hd : c.debug = true) (s : St τ) (doc : List τ) :
    (doc2bow c s doc).1 =
      { token2id := noteIds c s.token2id ((groupRuns (sorted doc)).map Prod.fst)
        id2token := noteSets c s.id2token ((groupRuns (sorted doc)).map Prod.fst)
        dfsDebug := accum s.dfsDebug ((groupRuns (sorted doc)).map (fun g => (g.1, 1)))
        dfs := accum s.dfs ((keys (resultOf c doc)).map (fun i => (i, 1)))
        numDocs := s.numDocs + 1
        numPos := s.numPos + doc.length
        numNnz := s.numNnz + (resultOf c doc).length } := by
  unfold doc2bow
  simp only [hd, if_true]
  rw [fold_fst_debug c hd, fold_snd]
  have hl : (pySort (fun a b => decide (a ≤ b)) doc).length = doc.length := length_pySort _ _
  have hacc : ∀ (t : PyDict Nat Nat) (ks : List Nat),
      accum t (ks.map (fun i => (i, 1))) = ks.foldl (fun t i => set t i (getD t i 0 + 1)) t := by
    intro t ks; simp only [accum, List.foldl_map]
  rw [hacc]
  simp only [hl]
  rfl

theorem doc2bow_fst_nodebug (c : Cfg τ) (hd : c.debug = false) (s : St τ) (doc : List τ) :
    (doc2bow c s doc).1 =
      { s with numDocs := s.numDocs + 1
               numPos := s.numPos + doc.length
               numNnz := s.numNnz + (resultOf c doc).length } := by
  unfold doc2bow
  simp only [hd, Bool.false_eq_true, if_false]
  rw [fold_fst_nodebug c hd, fold_snd]
  have hl : (pySort (fun a b => decide (a ≤ b)) doc).length = doc.length := length_pySort _ _
  simp only [hl]
  rfl

/-- **C10.** The vector does not depend on the documents seen before, filtering, or any state. -/
theorem C10_history_independent (c : Cfg τ) (s s' : St τ) (doc : List τ) :
    (doc2bow c s doc).2 = (doc2bow c s' doc).2 := by rw [doc2bow_snd, doc2bow_snd]

/-- **C10.** Ids are below `id_range`, strictly increasing, the weight at `i` is the number of tokens
hashing to `i` modulo `id_range`, exactly the ids of the tokens occur, and the weights sum to the
length of the document. -/
theorem C10_vector_exact (c : Cfg τ) (hr : 0 < c.range) (s : St τ) (doc : List τ) :
    (doc2bow c s doc).2.Pairwise (fun a b => a.1 < b.1) ∧
    (∀ i n, (i, n) ∈ (doc2bow c s doc).2 ↔ 0 < n ∧ n = idCount c doc i) ∧
    (∀ i n, (i, n) ∈ (doc2bow c s doc).2 → i < c.range) ∧
    ((doc2bow c s doc).2.map Prod.snd).sum = doc.length := by
  rw [doc2bow_snd]
  have hmem : ∀ i n, (i, n) ∈ pySort (fun a b : Nat × Nat => decide (a.1 ≤ b.1)) (resultOf c doc) ↔
      0 < n ∧ n = idCount c doc i := by
    intro i n
    rw [mem_pySort, ← get?_eq_some_iff (WF_resultOf c doc), ← getD_resultOf]
    constructor
    · intro h
      have hk : i ∈ keys (resultOf c doc) := (get?_isSome_iff _ _).mp (by simp [h])
      have hn : n = getD (resultOf c doc) i 0 := by simp [getD, h]
      refine ⟨?_, hn⟩
      rw [hn, getD_resultOf]
      obtain ⟨w, hw, e⟩ := (mem_keys_resultOf c doc i).mp hk
      exact List.countP_pos_iff.mpr ⟨w, hw, by simp [e]⟩
    · rintro ⟨h0, h1⟩
      have hk : i ∈ keys (resultOf c doc) := by
        by_contra hk
        rw [getD_of_not_mem hk] at h1
        omega
      rw [get?_eq_getD_of_mem hk 0, h1]
  refine ⟨?_, hmem, ?_, ?_⟩
  · have h1 : (pySort (fun a b : Nat × Nat => decide (a.1 ≤ b.1)) (resultOf c doc)).Pairwise
        (fun a b => decide (a.1 ≤ b.1) = true) := by
      apply pySort_sorted
      · intro a b; simp only [decide_eq_true_eq]; omega
      · intro a b d; simp only [decide_eq_true_eq]; omega
    have h2 : (pySort (fun a b : Nat × Nat => decide (a.1 ≤ b.1)) (resultOf c doc)).Pairwise
        (fun a b => a.1 ≠ b.1) := by
      rw [← List.pairwise_map]
      exact ((pySort_perm _ _).map Prod.fst).nodup_iff.mpr (WF_resultOf c doc)
    refine (h1.and h2).imp ?_
    intro a b ⟨h, h'⟩
    simp only [decide_eq_true_eq] at h
    omega
  · intro i n h
    rw [hmem] at h
    have : 0 < doc.countP (fun w => decide (c.id w = i)) := by
      have := h.1; rw [h.2] at this; exact this
    obtain ⟨w, _, e⟩ := List.countP_pos_iff.mp this
    simp only [decide_eq_true_eq] at e
    rw [← e]
    unfold Cfg.id
    have h1 := Int.emod_lt_of_pos (c.hash w) (b := (c.range : Int)) (by omega)
    have h2 := Int.emod_nonneg (c.hash w) (b := (c.range : Int)) (by omega)
    omega
  · rw [((pySort_perm (fun a b : Nat × Nat => decide (a.1 ≤ b.1)) (resultOf c doc)).map Prod.snd).sum_nat]
    have := sum_values_accum ([] : PyDict Nat Nat) ((groupRuns (sorted doc)).map (fun g => (c.id g.1, g.2)))
    have h2 := sum_groupRuns (sorted doc)
    rw [(sorted_perm doc).length_eq] at h2
    rw [← h2]
    simpa [values, resultOf, Function.comp_def] using this

/-! ### Statistics -/

theorem weight_ones {κ : Type} [DecidableEq κ] (ks : List κ) (h : ks.Nodup) (k : κ) :
    weight (ks.map (fun i => (i, 1))) k = if k ∈ ks then 1 else 0 := by
  induction ks with
  | nil => simp [weight]
  | cons x ks ih =>
    rw [List.nodup_cons] at h
    have ih := ih h.2
    unfold weight at ih ⊢
    simp only [List.map_cons, List.sum_cons]
    rw [ih]
    by_cases e : x = k
    · subst e; simp [h.1]
    · have e' : ¬ k = x := fun h => e h.symm
      simp [e, e']

theorem length_resultOf (c : Cfg τ) (doc : List τ) : (resultOf c doc).length = (idsOf c doc).length := by
  rw [← length_keys]
  apply List.Perm.length_eq
  unfold idsOf
  rw [List.perm_ext_iff_of_nodup (WF_resultOf c doc) (List.nodup_dedup _)]
  intro i
  rw [mem_keys_resultOf, List.mem_dedup, List.mem_map]

/-- **C10.** Counters are exact, in debug mode and without. -/
theorem C10_counters (c : Cfg τ) (docs : List (List τ)) :
    (addDocuments c init docs).numDocs = docs.length ∧
    (addDocuments c init docs).numPos = (docs.map List.length).sum ∧
    (addDocuments c init docs).numNnz = (docs.map (fun doc => (idsOf c doc).length)).sum := by
  have key : ∀ (docs : List (List τ)) (s : St τ),
      (addDocuments c s docs).numDocs = s.numDocs + docs.length ∧
      (addDocuments c s docs).numPos = s.numPos + (docs.map List.length).sum ∧
      (addDocuments c s docs).numNnz = s.numNnz + (docs.map (fun doc => (idsOf c doc).length)).sum := by
    intro docs
    induction docs with
    | nil => intro s; simp [addDocuments]
    | cons doc docs ih =>
      intro s
      obtain ⟨h1, h2, h3⟩ := ih (doc2bow c s doc).1
      have e : addDocuments c s (doc :: docs) = addDocuments c (doc2bow c s doc).1 docs := rfl
      rw [e, h1, h2, h3]
      cases hd : c.debug
      · rw [doc2bow_fst_nodebug c hd, length_resultOf]; simp; omega
      · rw [doc2bow_fst_debug c hd, length_resultOf]; simp; omega
  simpa [init] using key docs init

/-- **C10.** Debug statistics are exact: `dfs` counts for every id the documents having a token with
that id, `dfs_debug` the documents having the word, and `self[i]` is the set of all words seen so far
that hash to `i`. -/
theorem C10_debug_statistics (c : Cfg τ) (hd : c.debug = true) (docs : List (List τ)) :
    let s := addDocuments c init docs
    (∀ i, get? s.dfs i = if idDocFreq c docs i = 0 then none else some (idDocFreq c docs i)) ∧
    (∀ w, get? s.dfsDebug w = if docFreq docs w = 0 then none else some (docFreq docs w)) ∧
    (∀ w, get? s.token2id w = if docFreq docs w = 0 then none else some (c.id w)) ∧
    (∀ i w, w ∈ getitem s i ↔ c.id w = i ∧ ∃ doc ∈ docs, w ∈ doc) := by
  have key : ∀ (docs : List (List τ)) (s : St τ),
      (∀ i, getD (addDocuments c s docs).dfs i 0 = getD s.dfs i 0 + idDocFreq c docs i) ∧
      (∀ i, i ∈ keys (addDocuments c s docs).dfs ↔ i ∈ keys s.dfs ∨ idDocFreq c docs i ≠ 0) ∧
      (∀ w, getD (addDocuments c s docs).dfsDebug w 0 = getD s.dfsDebug w 0 + docFreq docs w) ∧
      (∀ w, w ∈ keys (addDocuments c s docs).dfsDebug ↔ w ∈ keys s.dfsDebug ∨ docFreq docs w ≠ 0) ∧
      (∀ w, get? (addDocuments c s docs).token2id w =
        if docFreq docs w = 0 then get? s.token2id w else some (c.id w)) ∧
      (∀ i w, w ∈ getitem (addDocuments c s docs) i ↔
        (c.id w = i ∧ ∃ doc ∈ docs, w ∈ doc) ∨ w ∈ getitem s i) := by
    intro docs
    induction docs with
    | nil => intro s; simp [addDocuments, idDocFreq, docFreq]
    | cons doc docs ih =>
      intro s
      have e : addDocuments c s (doc :: docs) = addDocuments c (doc2bow c s doc).1 docs := rfl
      obtain ⟨h1, h2, h3, h4, h5, h6⟩ := ih (doc2bow c s doc).1
      rw [← e, doc2bow_fst_debug c hd] at h1 h2 h3 h4 h5 h6
      simp only at h1 h2 h3 h4 h5 h6
      obtain ⟨hnd, hmem⟩ := groups_spec doc
      have hw1 : ∀ w, weight ((groupRuns (sorted doc)).map (fun g => (g.1, 1))) w =
          if w ∈ doc then 1 else 0 := by
        intro w
        have := weight_ones _ hnd w
        rw [List.map_map] at this
        rw [show (groupRuns (sorted doc)).map (fun g => (g.1, 1)) =
          (groupRuns (sorted doc)).map ((fun i => (i, 1)) ∘ Prod.fst) from rfl, this]
        by_cases hw : w ∈ doc
        · rw [if_pos ((hmem w).mpr hw), if_pos hw]
        · rw [if_neg (fun h => hw ((hmem w).mp h)), if_neg hw]
      have hdf : ∀ w, docFreq (doc :: docs) w = docFreq docs w + if w ∈ doc then 1 else 0 := by
        intro w; unfold docFreq; rw [List.countP_cons]; simp
      have hany : ∀ i, doc.any (fun w => decide (c.id w = i)) = true ↔ i ∈ keys (resultOf c doc) := by
        intro i; rw [mem_keys_resultOf]; simp
      have hidf : ∀ i, idDocFreq c (doc :: docs) i =
          idDocFreq c docs i + if i ∈ keys (resultOf c doc) then 1 else 0 := by
        intro i; unfold idDocFreq; rw [List.countP_cons]
        by_cases hh : i ∈ keys (resultOf c doc)
        · rw [if_pos hh, if_pos ((hany i).mpr hh)]
        · rw [if_neg hh, if_neg (fun h => hh ((hany i).mp h))]
      refine ⟨?_, ?_, ?_, ?_, ?_, ?_⟩
      · intro i
        rw [h1, getD_accum, weight_ones _ (WF_resultOf c doc), hidf]; omega
      · intro i
        rw [h2, mem_keys_accum, hidf]
        simp only [List.map_map, Function.comp_def, List.map_id']
        by_cases hh : i ∈ keys (resultOf c doc) <;> simp [hh]
      · intro w
        rw [h3, getD_accum, hw1, hdf]; omega
      · intro w
        rw [h4, mem_keys_accum, hdf]
        simp only [List.map_map, Function.comp_def]
        rw [hmem]
        by_cases hh : w ∈ doc <;> simp [hh]
      · intro w
        rw [h5, get?_noteIds, hdf]
        simp only [hmem]
        by_cases hh : w ∈ doc <;> simp [hh]
      · intro i w
        rw [h6]
        simp only [getitem, List.mem_cons, exists_eq_or_imp]
        rw [mem_noteSets, hmem]
        constructor
        · rintro (⟨h1, h2⟩ | ⟨h1, h2⟩ | h)
          · exact Or.inl ⟨h1, Or.inr h2⟩
          · exact Or.inl ⟨h2, Or.inl h1⟩
          · exact Or.inr h
        · rintro (⟨h1, h2 | h2⟩ | h)
          · exact Or.inr (Or.inl ⟨h2, h1⟩)
          · exact Or.inl ⟨h1, h2⟩
          · exact Or.inr (Or.inr h)
  obtain ⟨h1, h2, h3, h4, h5, h6⟩ := key docs init
  refine ⟨?_, ?_, ?_, ?_⟩
  · intro i
    split
    · next h => rw [get?_eq_none_iff, h2]; simp [init, h]
    · next h => rw [get?_eq_getD_of_mem ((h2 i).mpr (Or.inr h)) 0, h1]; simp [init, getD]
  · intro w
    split
    · next h => rw [get?_eq_none_iff, h4]; simp [init, h]
    · next h => rw [get?_eq_getD_of_mem ((h4 w).mpr (Or.inr h)) 0, h3]; simp [init, getD]
  · intro w; rw [h5]; simp [init]
  · intro i w; rw [h6]; simp [init, getitem, getD]

/-! ### Filtering -/

/-- what holds in every reachable debug state -/
structure Inv (c : Cfg τ) (s : St τ) : Prop where
  wfT : WF s.token2id
  wfI : WF s.id2token
  wfD : WF s.dfs
  wfW : WF s.dfsDebug
  ids : ∀ w i, get? s.token2id w = some i → i = c.id w
  same : ∀ w, w ∈ keys s.token2id ↔ w ∈ keys s.dfsDebug
  sets : ∀ i w, w ∈ getitem s i ↔ w ∈ keys s.token2id ∧ c.id w = i
  dfs : ∀ i, i ∈ keys s.dfs ↔ ∃ w ∈ keys s.token2id, c.id w = i

theorem keys_iff_get? {κ ν : Type} [DecidableEq κ] (t : PyDict κ ν) (k : κ) :
    k ∈ keys t ↔ get? t k ≠ none := by rw [Ne, get?_eq_none_iff, not_not]

theorem getD_mapVal_filter (t : PyDict Nat (List τ)) (p : τ → Bool) (i : Nat) :
    getD (t.map (fun q => (q.1, q.2.filter p))) i [] = (getD t i []).filter p := by
  have := get?_mapVal (fun (_ : Nat) (l : List τ) => l.filter p) t i
  unfold mapVal at this
  unfold getD
  rw [this]
  cases get? t i <;> simp

theorem Inv.init (c : Cfg τ) : Inv c (HashDict.init : St τ) :=
  ⟨WF_nil, WF_nil, WF_nil, WF_nil, by simp [HashDict.init], by simp [HashDict.init],
    by simp [HashDict.init, getitem, getD], by simp [HashDict.init]⟩

theorem Inv.doc {c : Cfg τ} (hd : c.debug = true) {s : St τ} (h : Inv c s) (doc : List τ) :
    Inv c (doc2bow c s doc).1 := by
  rw [doc2bow_fst_debug c hd]
  obtain ⟨hnd, hmem⟩ := groups_spec doc
  have hk : ∀ w, w ∈ keys (noteIds c s.token2id ((groupRuns (sorted doc)).map Prod.fst)) ↔
      w ∈ doc ∨ w ∈ keys s.token2id := by
    intro w
    rw [keys_iff_get?, get?_noteIds, keys_iff_get?]
    simp only [hmem]
    by_cases hh : w ∈ doc <;> simp [hh]
  refine ⟨WF_noteIds c h.wfT _, WF_noteSets c h.wfI _, WF_accum h.wfD _, WF_accum h.wfW _, ?_, ?_, ?_, ?_⟩
  · intro w i hw
    simp only at hw
    rw [get?_noteIds] at hw
    split at hw
    · exact (Option.some.inj hw).symm
    · exact h.ids w i hw
  · intro w
    simp only
    rw [hk, mem_keys_accum, ← h.same]
    simp only [List.map_map, Function.comp_def]
    rw [hmem, or_comm]
  · intro i w
    simp only
    rw [hk]
    show w ∈ getD (noteSets c s.id2token _) i [] ↔ _
    rw [mem_noteSets, hmem]
    have := h.sets i w
    unfold getitem at this
    rw [this]
    tauto
  · intro i
    simp only
    rw [mem_keys_accum, h.dfs]
    simp only [List.map_map, Function.comp_def, List.map_id', mem_keys_resultOf]
    constructor
    · rintro (⟨w, h1, h2⟩ | ⟨w, h1, h2⟩)
      · exact ⟨w, (hk w).mpr (Or.inr h1), h2⟩
      · exact ⟨w, (hk w).mpr (Or.inl h1), h2⟩
    · rintro ⟨w, h1, h2⟩
      rcases (hk w).mp h1 with h1 | h1
      · exact Or.inr ⟨w, h1, h2⟩
      · exact Or.inl ⟨w, h1, h2⟩

/-- the words kept by `filter_extremes` -/
def kept (s : St τ) (nb na : Int) (k : Option Nat) : List τ :=
  let ok : List (τ × Nat) := pySort (fun a b => decide (b.2 ≤ a.2))
    (s.dfsDebug.filter (fun p => decide (nb ≤ (p.2 : Int)) && decide ((p.2 : Int) ≤ na)))
  (match k with | none => ok | some n => ok.take n).map Prod.fst

theorem kept_sub (s : St τ) (nb na : Int) (k : Option Nat) (w : τ) (hw : w ∈ kept s nb na k) :
    w ∈ keys s.dfsDebug := by
  unfold kept at hw
  simp only [List.mem_map] at hw
  obtain ⟨p, hp, rfl⟩ := hw
  have : p ∈ pySort (fun a b : τ × Nat => decide (b.2 ≤ a.2))
    (s.dfsDebug.filter (fun p => decide (nb ≤ (p.2 : Int)) && decide ((p.2 : Int) ≤ na))) := by
    cases k with
    | none => exact hp
    | some n => exact List.mem_of_mem_take hp
  rw [mem_pySort, List.mem_filter] at this
  exact mem_keys_of_mem (v := p.2) this.1

/-- `s` after filtering, read off through lookups -/
theorem filter_reads {c : Cfg τ} {s : St τ} (h : Inv c s) (nb na : Int) (k : Option Nat) :
    let s' := filterExtremes s nb na k
    (∀ w, get? s'.dfsDebug w = if w ∈ kept s nb na k then get? s.dfsDebug w else none) ∧
    (∀ w, get? s'.token2id w = if w ∈ kept s nb na k then get? s.token2id w else none) ∧
    (∀ i, getitem s' i = (getitem s i).filter (fun w => decide (w ∈ kept s nb na k))) ∧
    (∀ i, get? s'.dfs i = if ∃ w ∈ kept s nb na k, c.id w = i then get? s.dfs i else none) := by
  intro s'
  have e1 : s'.dfsDebug = s.dfsDebug.filter (fun p => decide (p.1 ∈ kept s nb na k)) := by
    simp only [s', filterExtremes, kept]
    cases k <;> rfl
  have e2 : s'.token2id = s.token2id.filter (fun p => contains s'.dfsDebug p.1) := rfl
  have e3 : s'.id2token = s.id2token.map (fun p => (p.1, p.2.filter (fun w => contains s'.dfsDebug w))) := rfl
  have e4 : s'.dfs = s.dfs.filter (fun p => !(getD s'.id2token p.1 []).isEmpty) := rfl
  have r1 : ∀ w, get? s'.dfsDebug w = if w ∈ kept s nb na k then get? s.dfsDebug w else none := by
    intro w
    rw [e1, get?_filter h.wfW]
    by_cases hw : w ∈ kept s nb na k
    · rw [if_pos hw]
      cases get? s.dfsDebug w <;> simp [Option.filter, hw]
    · rw [if_neg hw]
      cases get? s.dfsDebug w <;> simp [Option.filter, hw]
  have hc : ∀ w, contains s'.dfsDebug w = decide (w ∈ kept s nb na k) := by
    intro w
    unfold contains
    rw [r1]
    by_cases hw : w ∈ kept s nb na k
    · rw [if_pos hw]
      simp only [hw, decide_true]
      exact (get?_isSome_iff _ _).mpr (kept_sub s nb na k w hw)
    · simp [hw]
  have r3 : ∀ i, getitem s' i = (getitem s i).filter (fun w => decide (w ∈ kept s nb na k)) := by
    intro i
    unfold getitem
    rw [e3, getD_mapVal_filter]
    simp only [hc]
  refine ⟨r1, ?_, r3, ?_⟩
  · intro w
    rw [e2, get?_filter h.wfT]
    by_cases hw : w ∈ kept s nb na k
    · rw [if_pos hw]
      cases get? s.token2id w <;> simp [Option.filter, hc, hw]
    · rw [if_neg hw]
      cases get? s.token2id w <;> simp [Option.filter, hc, hw]
  · intro i
    rw [e4, get?_filter h.wfD]
    have hne : (!(getD s'.id2token i []).isEmpty) = true ↔ ∃ w ∈ kept s nb na k, c.id w = i := by
      have := r3 i
      unfold getitem at this
      rw [this, Bool.not_eq_true', List.isEmpty_eq_false_iff_exists_mem]
      constructor
      · rintro ⟨w, hw⟩
        rw [List.mem_filter] at hw
        exact ⟨w, by simpa using hw.2, ((h.sets i w).mp hw.1).2⟩
      · rintro ⟨w, hw, e⟩
        refine ⟨w, List.mem_filter.mpr ⟨(h.sets i w).mpr ⟨?_, e⟩, by simpa using hw⟩⟩
        exact (h.same w).mpr (kept_sub s nb na k w hw)
    by_cases hh : ∃ w ∈ kept s nb na k, c.id w = i
    · rw [if_pos hh]
      cases get? s.dfs i
      · simp
      · simp only [Option.filter, hne.mpr hh, if_true]
    · rw [if_neg hh]
      have : (!(getD s'.id2token i []).isEmpty) = false := by
        rw [← Bool.not_eq_true]; exact fun h => hh (hne.mp h)
      cases get? s.dfs i
      · simp
      · simp only [Option.filter, this, Bool.false_eq_true, if_false]

theorem Inv.filter {c : Cfg τ} {s : St τ} (h : Inv c s) (nb na : Int) (k : Option Nat) :
    Inv c (filterExtremes s nb na k) := by
  obtain ⟨r1, r2, r3, r4⟩ := filter_reads h nb na k
  have hk : ∀ w, w ∈ keys (filterExtremes s nb na k).token2id ↔ w ∈ kept s nb na k := by
    intro w
    rw [keys_iff_get?, r2]
    by_cases hw : w ∈ kept s nb na k
    · rw [if_pos hw, ← keys_iff_get?, h.same]
      exact ⟨fun _ => hw, fun _ => kept_sub s nb na k w hw⟩
    · simp [hw]
  refine ⟨WF_filter h.wfT _, ?_, WF_filter h.wfD _, WF_filter h.wfW _, ?_, ?_, ?_, ?_⟩
  · have e : keys (filterExtremes s nb na k).id2token = keys s.id2token := by
      simp [filterExtremes, keys, Function.comp_def]
    unfold WF
    rw [e]; exact h.wfI
  · intro w i hw
    rw [r2] at hw
    split at hw
    · exact h.ids w i hw
    · cases hw
  · intro w
    rw [hk, keys_iff_get?, r1]
    by_cases hw : w ∈ kept s nb na k
    · rw [if_pos hw, ← keys_iff_get?]
      exact ⟨fun _ => kept_sub s nb na k w hw, fun _ => hw⟩
    · simp [hw]
  · intro i w
    rw [r3, List.mem_filter, h.sets, hk]
    simp only [decide_eq_true_eq]
    constructor
    · rintro ⟨⟨_, e⟩, hw⟩; exact ⟨hw, e⟩
    · rintro ⟨hw, e⟩; exact ⟨⟨(h.same w).mpr (kept_sub s nb na k w hw), e⟩, hw⟩
  · intro i
    rw [keys_iff_get?, r4]
    by_cases hh : ∃ w ∈ kept s nb na k, c.id w = i
    · rw [if_pos hh, ← keys_iff_get?, h.dfs]
      obtain ⟨w, hw, e⟩ := hh
      exact ⟨fun _ => ⟨w, (hk w).mpr hw, e⟩, fun _ => ⟨w, (h.same w).mpr (kept_sub s nb na k w hw), e⟩⟩
    · rw [if_neg hh]
      constructor
      · intro h; exact absurd rfl h
      · rintro ⟨w, hw, e⟩; exact absurd ⟨w, (hk w).mp hw, e⟩ hh

theorem Reachable.inv {c : Cfg τ} (hd : c.debug = true) {s : St τ} (h : Reachable c s) : Inv c s := by
  induction h with
  | init => exact Inv.init c
  | doc doc _ ih => exact ih.doc hd doc
  | filter nb na k _ ih => exact ih.filter nb na k

/-- **C10.** In every reachable debug state the reverse lookup returns exactly the known words of
that id, without repetition of ids: a word is known iff it has a document frequency, and an id has a
document frequency iff a known word hashes to it. -/
theorem C10_debug_tables_agree (c : Cfg τ) (hd : c.debug = true) {s : St τ} (h : Reachable c s) :
    (∀ i w, w ∈ getitem s i ↔ w ∈ keys s.dfsDebug ∧ c.id w = i) ∧
    (∀ w i, get? s.token2id w = some i ↔ w ∈ keys s.dfsDebug ∧ c.id w = i) ∧
    (∀ i, i ∈ keys s.dfs ↔ ∃ w ∈ keys s.dfsDebug, c.id w = i) := by
  have hi := h.inv hd
  refine ⟨?_, ?_, ?_⟩
  · intro i w; rw [hi.sets, hi.same]
  · intro w i
    rw [← hi.same]
    constructor
    · intro hw
      exact ⟨(get?_isSome_iff _ _).mp (by simp [hw]), (hi.ids w i hw).symm⟩
    · rintro ⟨hw, rfl⟩
      obtain ⟨j, hj⟩ := Option.isSome_iff_exists.mp ((get?_isSome_iff _ _).mpr hw)
      rw [hj, hi.ids w j hj]
  · intro i; rw [hi.dfs]; simp only [hi.same]

/-- **C10.** `filter_extremes` without `keep_n`: precisely the words with
`no_below <= df <= no_above_abs` keep their statistics, unchanged; the statistics of an id survive iff
one of its words does; and vectors are not affected. -/
theorem C10_filter_extremes (c : Cfg τ) (hd : c.debug = true) {s : St τ} (h : Reachable c s) (nb na : Int) :
    let s' := filterExtremes s nb na none
    let keep := fun w => ∃ n, get? s.dfsDebug w = some n ∧ nb ≤ (n : Int) ∧ (n : Int) ≤ na
    (∀ w n, get? s'.dfsDebug w = some n ↔ get? s.dfsDebug w = some n ∧ keep w) ∧
    (∀ w i, w ∈ getitem s' i ↔ w ∈ getitem s i ∧ keep w) ∧
    (∀ i n, get? s'.dfs i = some n ↔ get? s.dfs i = some n ∧ ∃ w, keep w ∧ c.id w = i) ∧
    (∀ doc, (doc2bow c s' doc).2 = (doc2bow c s doc).2) := by
  have hi := h.inv hd
  obtain ⟨r1, r2, r3, r4⟩ := filter_reads hi nb na none
  intro s' keep
  have hk : ∀ w, w ∈ kept s nb na none ↔ keep w := by
    intro w
    unfold kept
    simp only [List.mem_map, mem_pySort, List.mem_filter, Bool.and_eq_true, decide_eq_true_eq]
    constructor
    · rintro ⟨p, ⟨hp, h1, h2⟩, rfl⟩
      exact ⟨p.2, get?_of_mem hi.wfW hp, h1, h2⟩
    · rintro ⟨n, hn, h1, h2⟩
      exact ⟨(w, n), ⟨mem_of_get? hn, h1, h2⟩, rfl⟩
  refine ⟨?_, ?_, ?_, fun doc => C10_history_independent c _ _ doc⟩
  · intro w n
    rw [r1]
    by_cases hw : w ∈ kept s nb na none
    · rw [if_pos hw]; simp [(hk w).mp hw]
    · rw [if_neg hw]
      constructor
      · intro h; cases h
      · rintro ⟨_, h⟩; exact absurd ((hk w).mpr h) hw
  · intro w i
    rw [r3, List.mem_filter]
    simp only [decide_eq_true_eq, hk]
  · intro i n
    rw [r4]
    by_cases hh : ∃ w ∈ kept s nb na none, c.id w = i
    · rw [if_pos hh]
      obtain ⟨w, hw, e⟩ := hh
      exact ⟨fun h => ⟨h, w, (hk w).mp hw, e⟩, fun h => h.1⟩
    · rw [if_neg hh]
      constructor
      · intro h; cases h
      · rintro ⟨_, w, hw, e⟩; exact absurd ⟨w, (hk w).mpr hw, e⟩ hh

/-- **C10.** With `keep_n` the number of words that keep statistics is the smaller of `keep_n` and
the number of words in range, and no dropped word in range is more frequent than a kept one. -/
theorem C10_keep_n (c : Cfg τ) (hd : c.debug = true) {s : St τ} (h : Reachable c s) (nb na : Int) (n : Nat) :
    let s' := filterExtremes s nb na (some n)
    let inRange := fun m : Nat => decide (nb ≤ (m : Int)) && decide ((m : Int) ≤ na)
    s'.dfsDebug.length = min n ((s.dfsDebug.filter (fun p => inRange p.2)).length) ∧
    (∀ w a, get? s'.dfsDebug w = some a → get? s.dfsDebug w = some a ∧ inRange a = true) ∧
    (∀ w a w' b, get? s'.dfsDebug w = some a → get? s.dfsDebug w' = some b → inRange b = true →
      get? s'.dfsDebug w' = none → b ≤ a) := by
  have hi := h.inv hd
  obtain ⟨r1, _, _, _⟩ := filter_reads hi nb na (some n)
  intro s' inRange
  let ok : List (τ × Nat) := s.dfsDebug.filter (fun p => inRange p.2)
  let so := pySort (fun a b : τ × Nat => decide (b.2 ≤ a.2)) ok
  have hkept : kept s nb na (some n) = (so.take n).map Prod.fst := rfl
  have hsop : so.Perm ok := pySort_perm _ _
  have hokwf : WF ok := WF_filter hi.wfW _
  have hsowf : (so.map Prod.fst).Nodup := (hsop.map Prod.fst).nodup_iff.mpr hokwf
  have hsorted : so.Pairwise (fun a b => decide (b.2 ≤ a.2) = true) := by
    apply pySort_sorted
    · intro a b; simp only [decide_eq_true_eq]; omega
    · intro a b d; simp only [decide_eq_true_eq]; omega
  have hin : ∀ w a, get? s'.dfsDebug w = some a → (w, a) ∈ so.take n := by
    intro w a hw
    rw [r1, hkept] at hw
    split at hw
    · next hm =>
      obtain ⟨p, hp, e⟩ := List.mem_map.mp hm
      have hp2 := List.mem_of_mem_take hp
      rw [hsop.mem_iff] at hp2
      have := get?_of_mem hi.wfW (List.mem_filter.mp hp2).1
      rw [e] at this
      rw [this] at hw
      cases hw
      rw [← e]; exact hp
    · cases hw
  refine ⟨?_, ?_, ?_⟩
  · have e1 : s'.dfsDebug = s.dfsDebug.filter (fun p => decide (p.1 ∈ (so.take n).map Prod.fst)) := rfl
    have hperm : (s'.dfsDebug.map Prod.fst).Perm ((so.take n).map Prod.fst) := by
      rw [List.perm_ext_iff_of_nodup]
      · intro w
        show w ∈ keys s'.dfsDebug ↔ _
        rw [keys_iff_get?, r1, hkept]
        by_cases hw : w ∈ (so.take n).map Prod.fst
        · rw [if_pos hw, ← keys_iff_get?]
          exact ⟨fun _ => hw, fun _ => kept_sub s nb na (some n) w (hkept ▸ hw)⟩
        · rw [if_neg hw]; exact ⟨fun h => absurd rfl h, fun h => absurd h hw⟩
      · exact WF_filter hi.wfW _
      · rw [List.map_take]; exact List.Nodup.sublist (List.take_sublist _ _) hsowf
    have := hperm.length_eq
    simp only [List.length_map, List.length_take, hsop.length_eq] at this
    exact this
  · intro w a hw
    have := List.mem_of_mem_take (hin w a hw)
    rw [hsop.mem_iff, List.mem_filter] at this
    exact ⟨get?_of_mem hi.wfW this.1, this.2⟩
  · intro w a w' b hw hw' hr hn
    have h1 := hin w a hw
    have h2 : (w', b) ∈ so := by
      rw [hsop.mem_iff]; exact List.mem_filter.mpr ⟨mem_of_get? hw', hr⟩
    have h3 : (w', b) ∉ so.take n := by
      intro hm
      rw [r1, hkept, if_pos (List.mem_map.mpr ⟨_, hm, rfl⟩), hw'] at hn
      cases hn
    have h4 : (w', b) ∈ so.drop n := by
      rw [← List.take_append_drop n so] at h2
      rcases List.mem_append.mp h2 with h2 | h2
      · exact absurd h2 h3
      · exact h2
    have h5 := hsorted
    rw [← List.take_append_drop n so, List.pairwise_append] at h5
    simpa using h5.2.2 _ h1 _ h4

/-- **C10.** Without debug mode nothing but the counters changes. -/
theorem C10_nodebug_no_tables (c : Cfg τ) (hd : c.debug = false) {s : St τ} (h : Reachable c s) :
    s.token2id = [] ∧ s.id2token = [] ∧ s.dfs = [] ∧ s.dfsDebug = [] := by
  induction h with
  | init => simp [init]
  | doc doc _ ih => rw [doc2bow_fst_nodebug c hd]; exact ih
  | filter nb na k _ ih =>
    obtain ⟨h1, h2, h3, h4⟩ := ih
    simp [filterExtremes, h1, h2, h3, h4]

/-- a collision: 1 and 6 share id 1 -/
def demoCfg : Cfg Nat := ⟨fun w => (w : Int), 5, true⟩
def demoDocs : List (List Nat) := [[1, 6, 1, 3], [3, 2], [6, 6]]

example : 0 < demoCfg.range ∧ (doc2bow demoCfg init [6, 1, 3, 1]).2 = [(1, 3), (3, 1)] ∧
    (addDocuments demoCfg init demoDocs).dfs = [(1, 2), (3, 2), (2, 1)] ∧
    getitem (addDocuments demoCfg init demoDocs) 1 = [1, 6] ∧
    (filterExtremes (addDocuments demoCfg init demoDocs) 2 3 none).dfsDebug = [(3, 2), (6, 2)] ∧
    (filterExtremes (addDocuments demoCfg init demoDocs) 0 3 (some 1)).dfs = [(3, 2)] := by decide

example : Reachable demoCfg (addDocuments demoCfg init demoDocs) :=
  .doc [6, 6] (.doc [3, 2] (.doc [1, 6, 1, 3] .init))

end Verif.HashDict
