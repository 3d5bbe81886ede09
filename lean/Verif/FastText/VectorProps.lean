/-
Property C64: how fastText composes vectors, and what survives saving.
-/
import Verif.FastText.VectorModel
import Verif.FastText.NgramProps
import Mathlib.Tactic.NormNum
import Mathlib.Algebra.BigOperators.Group.List.Basic

namespace Verif.FastText

variable {ι K : Type} [Field K]

/-! ### Specification -/

/-- The n-gram rows of a word: the row selected by the hash of every n-gram of the word. -/
def ngramRows (s : FTV ι K) (w : List Char) : List (ι → K) :=
  (ngramSpans (bracketed w).length s.minN s.maxN).map fun pn =>
    s.ngrams.getD (ftHash (encode (substring (bracketed w) pn.1 pn.2)) % s.bucket) 0

/-- States an application reaches: build the vocabulary (possibly several times), train, save and
    load.  Rows are always allocated for every word (`resize_vectors` and training keep the shape). -/
inductive Reach : FTV ι K → Prop where
  | build (s : FTV ι K) (ws : List (List Char)) (v n : List (ι → K)) (t : FTV ι K) :
      ws.Nodup → v.length = ws.length → s.resize ws v n = some t → Reach t
  | train (s : FTV ι K) (v n : List (ι → K)) (t : FTV ι K) :
      Reach s → v.length = s.words.length → s.train v n = some t → Reach t
  | reload (s t : FTV ι K) : Reach s → s.save.load = some t → Reach t

/-- `vectors` and `buckets_word` are what the stored arrays determine. -/
structure Synced (s : FTV ι K) : Prop where
  nodup : s.words.Nodup
  len : s.vocab.length = s.words.length
  buckets : s.bucketsWord = s.recalcBuckets.bucketsWord
  vecs : s.adjust = some s

theorem recalc_some (s : FTV ι K) : ∃ bw, s.recalcBuckets.bucketsWord = some bw ∧
    bw.length = s.words.length := by
  unfold FTV.recalcBuckets; split
  · exact ⟨_, rfl, by simp⟩
  · exact ⟨_, rfl, by simp⟩

theorem recalc_fields (s : FTV ι K) : s.recalcBuckets =
    { s with bucketsWord := s.recalcBuckets.bucketsWord } := by
  unfold FTV.recalcBuckets; split <;> rfl

theorem recalc_congr (s t : FTV ι K) (h1 : s.words = t.words) (h2 : s.minN = t.minN)
    (h3 : s.maxN = t.maxN) (h4 : s.bucket = t.bucket) :
    s.recalcBuckets.bucketsWord = t.recalcBuckets.bucketsWord := by
  unfold FTV.recalcBuckets
  rw [h1, h2, h3, h4]
  split <;> rfl

theorem adjust_fields {s t : FTV ι K} (h : s.adjust = some t) :
    t = { s with vectors := t.vectors } ∧ t.vectors.isSome := by
  unfold FTV.adjust at h
  split at h
  · cases h; exact ⟨rfl, rfl⟩
  · split at h
    · cases h
    · split at h
      · cases h; exact ⟨rfl, rfl⟩
      · cases h

theorem adjust_vectors_irrel (s : FTV ι K) (v : Option (List (ι → K))) :
    FTV.adjust { s with vectors := v } = s.adjust := by
  unfold FTV.adjust; rfl

theorem adjust_idem {s t : FTV ι K} (h : s.adjust = some t) : t.adjust = some t := by
  have := (adjust_fields h).1
  rw [this, adjust_vectors_irrel, h, ← this]

theorem synced_of_adjust {s t : FTV ι K} (hn : s.words.Nodup) (hl : s.vocab.length = s.words.length)
    (hb : s.bucketsWord = s.recalcBuckets.bucketsWord) (h : s.adjust = some t) : Synced t := by
  have e := (adjust_fields h).1
  refine ⟨by rw [e]; exact hn, by rw [e]; exact hl, ?_, adjust_idem h⟩
  rw [recalc_congr t s (by rw [e]) (by rw [e]) (by rw [e]) (by rw [e]), ← hb, e]

/-- Saving and loading a synchronised state gives back the very same state. -/
theorem reload_synced (s : FTV ι K) (h : Synced s) : s.save.load = some s := by
  have e : s.save.recalcBuckets = { s with vectors := none } := by
    rw [recalc_fields, recalc_congr s.save s rfl rfl rfl rfl, ← h.buckets]; rfl
  unfold FTV.load
  have h1 : (s.save.bucketsWord.getD []).isEmpty = true := rfl
  dsimp only
  rw [if_pos h1, e]
  have h2 : ({ s with vectors := none } : FTV ι K).vectors.isNone = true := rfl
  rw [if_pos h2, adjust_vectors_irrel, h.vecs]

theorem reach_synced (s : FTV ι K) (h : Reach s) : Synced s := by
  induction h with
  | build s ws v n t hn hl h =>
    unfold FTV.resize at h
    obtain ⟨bw, hb, -⟩ := recalc_some { s with words := ws, vocab := v, ngrams := n }
    have ef := recalc_fields { s with words := ws, vocab := v, ngrams := n }
    refine synced_of_adjust (by rw [ef]; exact hn) (by rw [ef]; exact hl) ?_ h
    exact recalc_congr _ _ (by rw [ef]) (by rw [ef]) (by rw [ef]) (by rw [ef])
  | train s v n t _ hl h ih =>
    unfold FTV.train at h
    refine synced_of_adjust (s := { s with vocab := v, ngrams := n }) ih.nodup hl ?_ h
    rw [recalc_congr { s with vocab := v, ngrams := n } s rfl rfl rfl rfl, ← ih.buckets]
  | reload s t _ h ih =>
    rw [reload_synced s ih] at h
    cases h; exact ih

/-- **C64**: saving and loading any model that was built and trained gives back every vector. -/
theorem C64_save_load (s : FTV ι K) (h : Reach s) : s.save.load = some s :=
  reload_synced s (reach_synced s h)

/-- Building and training never fail for lack of rows. -/
theorem C64_total (s : FTV ι K) (v n : List (ι → K)) :
    (∀ ws : List (List Char), v.length = ws.length → (s.resize ws v n).isSome) ∧
    (Reach s → v.length = s.words.length → (s.train v n).isSome) := by
  constructor
  · intro ws hl
    unfold FTV.resize
    obtain ⟨bw, hb, hlen⟩ := recalc_some { s with words := ws, vocab := v, ngrams := n }
    rw [recalc_fields, hb]
    unfold FTV.adjust
    dsimp only at hlen ⊢
    split
    · rfl
    · rw [if_pos ⟨by omega, by omega⟩]; rfl
  · intro h hl
    have hs := reach_synced s h
    obtain ⟨bw, hb, hlen⟩ := recalc_some s
    unfold FTV.train FTV.adjust
    dsimp only
    rw [hs.buckets, hb]
    dsimp only
    split
    · rfl
    · rw [if_pos ⟨by omega, by omega⟩]; rfl

theorem addRows_eq (ngrams : List (ι → K)) (hs : List Nat) (v : ι → K) (j : ι) :
    addRows ngrams v hs j = v j + (hs.map fun nh => ngrams.getD nh 0 j).sum := by
  unfold addRows
  induction hs generalizing v with
  | nil => simp
  | cons h hs ih => rw [List.foldl_cons, ih]; simp [add_assoc]

theorem hashes_rows (s : FTV ι K) (w : List Char) (j : ι) :
    ((ngramHashes w s.minN s.maxN s.bucket).map fun nh => s.ngrams.getD nh 0 j) =
      (ngramRows s w).map fun r => r j := by
  unfold ngramHashes ngramRows
  rw [C42_byte_ngrams, List.map_map, List.map_map, List.map_map]
  rfl

theorem hashes_len (s : FTV ι K) (w : List Char) :
    (ngramHashes w s.minN s.maxN s.bucket).length = (ngramRows s w).length := by
  unfold ngramHashes ngramRows
  rw [C42_byte_ngrams, List.length_map, List.length_map, List.length_map]

/-- **C64**: in any model that was built, trained, saved or loaded, the vector of a vocabulary word
    is the average of its own row and its n-gram rows. -/
theorem C64_known_word (s : FTV ι K) (h : Reach s) (hb : s.bucket ≠ 0) (w : List Char)
    (hw : w ∈ s.words) : ∃ own, s.vocab[s.words.idxOf w]? = some own ∧
    s.get w = .vector fun j =>
      (own j + ((ngramRows s w).map fun r => r j).sum) / (((ngramRows s w).length : K) + 1) := by
  have hs := reach_synced s h
  have hi : s.words.idxOf w < s.words.length := List.idxOf_lt_length_of_mem hw
  have hi2 : s.words.idxOf w < s.vocab.length := by rw [hs.len]; exact hi
  refine ⟨s.vocab[s.words.idxOf w], List.getElem?_eq_getElem hi2, ?_⟩
  have hbw : s.bucketsWord = some (s.words.map fun w => ngramHashes w s.minN s.maxN s.bucket) := by
    rw [hs.buckets]; unfold FTV.recalcBuckets; rw [if_neg hb]
  have hv := hs.vecs
  unfold FTV.adjust at hv
  rw [if_neg hb, hbw] at hv
  dsimp only at hv
  rw [if_pos ⟨by rw [hs.len], by simp⟩] at hv
  have hv' := congrArg FTV.vectors (Option.some.inj hv)
  dsimp only at hv'
  unfold FTV.get
  rw [if_pos hw, ← hv']
  congr 1
  rw [Option.getD_some, List.getD_eq_getElem?_getD, List.getElem?_append_left (by
    simp only [List.length_zipWith, List.length_take, List.length_map]; omega)]
  rw [List.getElem?_zipWith, List.take_of_length_le (by rw [hs.len]),
    List.take_of_length_le (by simp), List.getElem?_eq_getElem hi2, List.getElem?_map,
    List.getElem?_eq_getElem hi, Option.map_some]
  dsimp only
  rw [Option.getD_some, List.getElem_idxOf]
  funext j
  unfold composeRow
  rw [addRows_eq, hashes_rows, hashes_len]

/-- **C64**: without n-grams the vector of a word is its own row. -/
theorem C64_known_word_no_buckets (s : FTV ι K) (h : Reach s) (hb : s.bucket = 0) (w : List Char)
    (hw : w ∈ s.words) : ∃ own, s.vocab[s.words.idxOf w]? = some own ∧ s.get w = .vector own := by
  have hs := reach_synced s h
  have hi2 : s.words.idxOf w < s.vocab.length := by
    rw [hs.len]; exact List.idxOf_lt_length_of_mem hw
  refine ⟨_, List.getElem?_eq_getElem hi2, ?_⟩
  have hv := hs.vecs
  unfold FTV.adjust at hv
  rw [if_pos hb] at hv
  have hv' := congrArg FTV.vectors (Option.some.inj hv)
  dsimp only at hv'
  unfold FTV.get
  rw [if_pos hw, ← hv', Option.getD_some, List.getD_eq_getElem?_getD,
    List.getElem?_eq_getElem hi2, Option.getD_some]

/-- **C64**: the vector of an out-of-vocabulary word is the average of its n-gram rows, or the origin
    when it has none. -/
theorem C64_unknown_word (s : FTV ι K) (w : List Char) (hb : s.bucket ≠ 0) (hw : w ∉ s.words) :
    s.get w = .vector fun j =>
      if ngramRows s w = [] then 0
      else ((ngramRows s w).map fun r => r j).sum / ((ngramRows s w).length : K) := by
  unfold FTV.get
  rw [if_neg hw, if_neg hb]
  dsimp only
  rw [hashes_len]
  by_cases h : ngramRows s w = []
  · rw [if_pos (by rw [h]; rfl)]
    congr 1; funext j; rw [if_pos h]; rfl
  · rw [if_neg (by rwa [List.length_eq_zero_iff])]
    congr 1; funext j
    rw [if_neg h, addRows_eq, hashes_rows]; simp

/-- All rows used exist: the n-gram matrix has one row per bucket. -/
theorem C64_rows_exist (s : FTV ι K) (w : List Char) (hb : s.bucket ≠ 0)
    (hn : s.ngrams.length = s.bucket) : ∀ r ∈ ngramRows s w, r ∈ s.ngrams := by
  intro r hr
  unfold ngramRows at hr
  rw [List.mem_map] at hr
  obtain ⟨pn, -, rfl⟩ := hr
  have hlt : ftHash (encode (substring (bracketed w) pn.1 pn.2)) % s.bucket < s.ngrams.length := by
    rw [hn]; exact Nat.mod_lt _ (Nat.pos_of_ne_zero hb)
  rw [List.getD_eq_getElem?_getD, List.getElem?_eq_getElem hlt, Option.getD_some]
  exact List.getElem_mem hlt

/-- `word in kv` promises a vector, but with `bucket = 0` an unknown word raises `KeyError`. -/
theorem C64_contains_lies (s : FTV ι K) (w : List Char) (hb : s.bucket = 0) (hw : w ∉ s.words) :
    s.contains w = true ∧ s.get w = .keyError := by
  refine ⟨rfl, ?_⟩
  unfold FTV.get
  rw [if_neg hw, if_pos hb]

/-- A vector assigned to a known word (`kv[word] = v`) is not saved: loading restores the old one. -/
theorem C64_assignment_lost (s : FTV ι K) (h : Reach s) (w : List Char) (v : ι → K) :
    (s.overwrite w v).save.load = some s := by
  have : (s.overwrite w v).save = s.save := rfl
  rw [this, C64_save_load s h]

/-- A model to which a word was added with `add_vector` can be saved but not loaded again. -/
theorem C64_added_word_unloadable (s : FTV ι K) (h : Reach s) (hb : s.bucket ≠ 0) (w : List Char)
    (v : ι → K) : (s.append w v).save.load = none := by
  have hs := reach_synced s h
  obtain ⟨bw, hbw, hlen⟩ := recalc_some (s.append w v).save
  unfold FTV.load
  have h1 : ((s.append w v).save.bucketsWord.getD []).isEmpty = true := rfl
  dsimp only
  rw [if_pos h1, recalc_fields, hbw]
  have h2 : (s.append w v).save.vectors.isNone = true := rfl
  rw [if_pos h2]
  unfold FTV.adjust
  dsimp only
  have hb' : (s.append w v).save.bucket ≠ 0 := hb
  rw [if_neg hb', if_neg]
  rintro ⟨h3, -⟩
  have e1 : (s.append w v).save.words = s.words ++ [w] := rfl
  have e2 : (s.append w v).save.vocab = s.vocab := rfl
  rw [e1, e2, List.length_append, List.length_singleton, hs.len] at h3
  omega

/-- A concrete model: one word, three buckets, one coordinate. -/
def exStart : FTV Unit ℚ :=
  { words := [], minN := 3, maxN := 3, bucket := 3, vocab := [], ngrams := [],
    bucketsWord := none, vectors := none }

example : ∃ t : FTV Unit ℚ, Reach t ∧ t.bucket ≠ 0 ∧ ['h', 'e', 'y'] ∈ t.words ∧
    (ngramRows t ['h', 'e', 'y']).length = 3 ∧ (ngramRows t ['y', 'e']).length = 2 := by
  have h := (C64_total exStart [fun _ => 1] [fun _ => 1, fun _ => 2, fun _ => 4]).1
    [['h', 'e', 'y']] rfl
  obtain ⟨t, ht⟩ := Option.isSome_iff_exists.1 h
  have hr : Reach t := .build exStart _ _ _ t (by decide) rfl ht
  have e := (adjust_fields (by unfold FTV.resize at ht; exact ht)).1
  refine ⟨t, hr, ?_, ?_, ?_, ?_⟩
  · rw [e, recalc_fields]; change (3 : Nat) ≠ 0; decide
  · rw [e, recalc_fields]; exact List.mem_singleton.2 rfl
  · unfold ngramRows; rw [List.length_map, e, recalc_fields]
    change (ngramSpans (bracketed ['h', 'e', 'y']).length 3 3).length = 3; decide +kernel
  · unfold ngramRows; rw [List.length_map, e, recalc_fields]
    change (ngramSpans (bracketed ['y', 'e']).length 3 3).length = 2; decide +kernel

end Verif.FastText
