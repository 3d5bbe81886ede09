import Verif.Doc2Vec.SaveModel
import Verif.Doc2Vec.TagsProps
import Verif.KeyedVectors.FormatProps

/-!
# C138: saving the vectors of Doc2Vec
-/

namespace Verif.Doc2Vec
open Verif Verif.Text Verif.KV PyDict

/-! ## Specification -/

/-- the order of the tags of a corpus in the file: the integers from 0 on, then the string tags, most frequent first -/
def TagOrder (docs : List (Nat × List (Tag Str))) (l : List (Tag Str)) : Prop :=
  ∃ (n : Nat) (strs : List Str), l = (List.range n).map (fun i : Nat => Tag.int (i : Int)) ++ strs.map Tag.str ∧
    (buildTags docs).indexToKey.Perm l ∧ strs.Pairwise (fun a b => occurrences docs b ≤ occurrences docs a)

/-- a file: the header with the number of rows and the size, then the records -/
def fileOf {V : Type} (record : Str → V → Str) (total size : Nat) (recs : List (Str × V)) : Str :=
  showNat total ++ [' '] ++ showNat size ++ '\n' :: (recs.map fun p => record p.1 p.2).flatten

/-! ## Reading such files -/

variable {V N : Type}

theorem putRecords_all {κ : Type} (get : κ → Option V) (record : κ → V → Str) (dflt : V) (ks : List κ)
    (h : ∀ k ∈ ks, (get k).isSome) :
    putRecords get record ks = ((ks.map fun k => record k ((get k).getD dflt)).flatten, true) := by
  induction ks with
  | nil => rfl
  | cons k ks ih =>
    obtain ⟨v, hv⟩ := Option.isSome_iff_exists.1 (h k (by simp))
    rw [putRecords, hv, ih fun k hk => h k (by simp [hk])]
    simp [hv]

theorem no_newline {W : Type} (C : Codec W) (k : Str) (hk : '\n' ∉ k) (v : List W) :
    '\n' ∉ k ++ [' '] ++ joinWith [' '] (v.map C.enc) := by
  intro hc
  rw [List.mem_append, List.mem_append] at hc
  rcases hc with (hc | hc) | hc
  · exact hk hc
  · simp at hc
  · have hjoin : ∀ ps : List Str, (∀ q ∈ ps, '\n' ∉ q) → '\n' ∉ joinWith [' '] ps := by
      intro ps
      induction ps with
      | nil => intro _ h; simp [joinWith] at h
      | cons q qs ih =>
        intro hq
        cases qs with
        | nil => exact hq q List.mem_cons_self
        | cons q' qs =>
          rw [joinWith, List.mem_append, List.mem_append]
          rintro ((h | h) | h)
          · exact hq q List.mem_cons_self h
          · simp at h
          · exact ih (fun r hr' => hq r (List.mem_cons_of_mem _ hr')) h
    refine hjoin _ ?_ hc
    intro q hq hn
    obtain ⟨x, _, rfl⟩ := List.mem_map.mp hq
    have := C.enc_no_ws x '\n' hn
    revert this; decide

/-- records behind the announced number of rows are not read -/
theorem load_text {W : Type} (C : Codec W) (zero : W) (size : Nat) (hs : 1 ≤ size) (F E : List (Str × List W))
    (hk : ∀ p ∈ F ++ E, ' ' ∉ p.1 ∧ '\n' ∉ p.1 ∧ p.2.length = size) (hn : (F.map Prod.fst).Nodup) :
    (loadText C.dec zero none (fileOf (textRecord C.enc) F.length size (F ++ E)) : Load (Loading Str (List W) N))
      = .ok (loaded (List.replicate size zero) F.length F) := by
  unfold loadText fileOf
  rw [pyLines_cons_line (header_no_newline _ _)]
  dsimp only
  rw [readHeader_show]
  dsimp only
  have hlines : pyLines ((F ++ E).map (fun p => textRecord C.enc p.1 p.2)).flatten =
      (F ++ E).map (fun p => textRecord C.enc p.1 p.2) := by
    have := pyLines_flatten (ls := (F ++ E).map (fun p => p.1 ++ [' '] ++ joinWith [' '] (p.2.map C.enc))) (by
      intro l hl hc
      obtain ⟨p, hp, rfl⟩ := List.mem_map.mp hl
      exact no_newline C p.1 (hk p hp).2.1 p.2 hc)
    rw [List.map_map] at this
    exact this
  rw [hlines, List.map_append, readText_spec C _ size hs F _ _ fun p hp => ⟨(hk p (by simp [hp])).1, (hk p (by simp [hp])).2.2⟩,
    foldl_addWord _ _ _ (Nat.le_refl _), firsts_of_nodup _ hn]

theorem load_binary (encode decode : Str → Str) (toBytes : V → Str) (parse : Str → V) (zero : Nat → V) (bytes : Nat → Nat)
    (c : Nat) (hc : 1 ≤ c) (size : Nat) (F E : List (Str × V))
    (hk : ∀ p ∈ F ++ E, decode (encode p.1) = p.1 ∧ ' ' ∉ encode p.1 ∧ (encode p.1).head? ≠ some '\n' ∧
      parse (toBytes p.2) = p.2 ∧ (toBytes p.2).length = bytes size) (hn : (F.map Prod.fst).Nodup) :
    (loadBinary decode parse zero bytes c none (fileOf (binaryRecord encode toBytes) F.length size (F ++ E)) :
      Load (Loading Str V N)) = .ok (loaded (zero size) F.length F) := by
  unfold loadBinary fileOf
  rw [pyLines_cons_line (header_no_newline _ _)]
  dsimp only
  rw [readHeader_show]
  dsimp only
  have hdrop : ∀ a b : Str, (a ++ '\n' :: b).drop (a ++ ['\n']).length = b := by
    intro a b
    have : a ++ '\n' :: b = (a ++ ['\n']) ++ b := by simp
    rw [this, List.drop_left]
  rw [hdrop]
  have hwk : ∀ p ∈ F ++ E, wordKey decode (encode p.1) = p.1 := by
    intro p hp
    obtain ⟨h1, _, h2, _⟩ := hk p hp
    unfold wordKey
    conv_rhs => rw [← h1]
    congr 1
    cases he : encode p.1 with
    | nil => rfl
    | cons x xs =>
      rw [he] at h2
      rw [List.dropWhile_cons_of_neg]
      simpa using h2
  have hkeys : ((F.map fun p => (encode p.1, toBytes p.2)).map fun r => (wordKey decode r.1, parse r.2)) = F := by
    rw [List.map_map]
    conv_rhs => rw [← List.map_id F]
    apply List.map_congr_left
    intro p hp
    simp only [Function.comp, id]
    rw [hwk p (by simp [hp]), (hk p (by simp [hp])).2.2.2.1]
  have hfile : ((F ++ E).map (fun p => binaryRecord encode toBytes p.1 p.2)).flatten =
      ((((F ++ E).map (fun p => (encode p.1, toBytes p.2))).map recordBytes).flatten ++ []) := by
    rw [List.map_map, List.append_nil]
    congr 1
    apply List.map_congr_left
    intro p _
    simp [binaryRecord, recordBytes]
  rw [hfile]
  have htake : ((F ++ E).map fun p => (encode p.1, toBytes p.2)).take F.length = F.map fun p => (encode p.1, toBytes p.2) := by
    rw [List.map_append, List.take_left' (by simp)]
  rw [C40_binary_reader decode parse (zero size) F.length (bytes size) c hc _ (by
      intro r hr
      obtain ⟨p, hp, rfl⟩ := List.mem_map.mp hr
      exact ⟨(hk p hp).2.1, (hk p hp).2.2.2.2⟩) [] (by intro w v r _ _ e; simp at e)
    (.inl (by
      rw [htake, List.map_map]
      have : (F.map ((fun r => wordKey decode r.1) ∘ fun p => (encode p.1, toBytes p.2))) = F.map Prod.fst := by
        apply List.map_congr_left
        intro p hp
        exact hwk p (by simp [hp])
      rw [this]
      exact hn))]
  · rw [if_neg (by simp), htake, hkeys, firsts_of_nodup _ hn]
  · simp only [List.length_append, List.length_cons]; omega

/-! ## The rows of the tags -/

theorem scan_nodup (docs : List (Nat × List (Tag Str))) : (scan docs).list.Nodup := by
  have h := inv_scan docs
  rw [← h.keys]
  exact h.wf

theorem index_rows (docs : List (Nat × List (Tag Str))) (vecs : List V) (r : Nat) (t : Tag Str)
    (ht : (buildTags docs).indexToKey[r]? = some t) (wv : Store Str V N) (counts : Option (Str → Nat)) :
    getIndex Tag.asInt (D2V.dv ⟨wv, counts, buildTags docs, vecs⟩) t = some r := by
  have h := inv_scan docs
  unfold D2V.dv getIndex
  dsimp only
  have hlen : r < (buildTags docs).indexToKey.length := (List.getElem?_eq_some_iff.1 ht).1
  unfold buildTags store at ht ⊢
  dsimp only at ht ⊢
  generalize hm : (if (scan docs).maxInt > -1 then ((scan docs).maxInt + 1).toNat else 0) = m at ht ⊢
  by_cases hr : r < m
  · rw [List.getElem?_append_left (by simpa using hr), List.getElem?_map, List.getElem?_range hr] at ht
    cases ht
    rw [get?_foldl_str_int (fun d : Doctag => d.index + m)]
    simp only [get?_nil, Tag.asInt]
    rw [if_pos]
    · simp
    · simp
      omega
  · rw [List.getElem?_append_right (by simpa using hr), List.getElem?_map] at ht
    simp only [List.length_map, List.length_range] at ht
    obtain ⟨k, hk, rfl⟩ := Option.map_eq_some_iff.1 ht
    have hmem : k ∈ (scan docs).lookup.keys := by rw [h.keys]; exact List.mem_of_getElem? hk
    obtain ⟨d, hd⟩ := Option.isSome_iff_exists.mp ((get?_isSome_iff _ _).mpr hmem)
    obtain ⟨p1, _, _⟩ := h.pos k d hd
    have : d.index = r - m := by
      have h1 := List.getElem?_eq_some_iff.1 p1
      have h2 := List.getElem?_eq_some_iff.1 hk
      obtain ⟨a1, a2⟩ := h1
      obtain ⟨b1, b2⟩ := h2
      exact (scan_nodup docs).getElem_inj_iff.1 (a2.trans b2.symm)
    have e := get?_foldl_map (Tag.str (κ := Str)) (by intro a b e; injection e) (fun d : Doctag => d.index + m) (scan docs).lookup []
      h.wf k
    rw [hd] at e
    dsimp only at e
    rw [e]
    simp only [Option.some.injEq]
    omega

theorem index_nodup (docs : List (Nat × List (Tag Str))) : (buildTags docs).indexToKey.Nodup := by
  unfold buildTags store
  dsimp only
  rw [List.nodup_append]
  refine ⟨List.nodup_range.map (by intro a b e; simpa using e), (scan_nodup docs).map (by intro a b e; simpa using e), ?_⟩
  intro a ha b hb e
  obtain ⟨i, _, rfl⟩ := List.mem_map.1 ha
  obtain ⟨k, _, rfl⟩ := List.mem_map.1 hb
  cases e

theorem keys_foldl {α ν μ : Type} [DecidableEq α] (f : Str → α) (hf : ∀ a b, f a = f b → a = b) (g : ν → μ) :
    ∀ (l : PyDict Str ν) (d : PyDict α μ), WF l → (∀ k ∈ l.keys, f k ∉ d.keys) →
    PyDict.keys (l.foldl (fun d p => d.set (f p.1) (g p.2)) d) = d.keys ++ l.keys.map f := by
  intro l
  induction l with
  | nil => intro d _ _; simp [PyDict.keys]
  | cons p l ih =>
    intro d hwf hd
    have hwf' : p.1 ∉ keys l ∧ WF l := by
      have : (keys (p :: l)).Nodup := hwf
      rw [show keys (p :: l) = p.1 :: keys l from rfl, List.nodup_cons] at this
      exact this
    have hp : f p.1 ∉ d.keys := hd p.1 (by simp [PyDict.keys])
    have hk : (d.set (f p.1) (g p.2)).keys = d.keys ++ [f p.1] := by
      rw [keys_set_of_not_mem hp]
    rw [List.foldl_cons, ih _ hwf'.2, hk]
    · simp [PyDict.keys]
    · intro k hk'
      rw [hk, List.mem_append]
      rintro (h | h)
      · exact hd k (by simp only [PyDict.keys, List.map_cons, List.mem_cons]; exact Or.inr hk') h
      · have := hf _ _ (List.mem_singleton.1 h)
        subst this
        exact hwf'.1 hk'

theorem keyToIndex_keys (docs : List (Nat × List (Tag Str))) :
    (buildTags docs).keyToIndex.keys = (scan docs).list.map Tag.str ∧ (buildTags docs).docCount.keys = (scan docs).list := by
  have h := inv_scan docs
  constructor
  · unfold buildTags store
    dsimp only
    rw [keys_foldl Tag.str (by intro a b e; injection e)
      (fun d : Doctag => d.index + (if (scan docs).maxInt > -1 then ((scan docs).maxInt + 1).toNat else 0)) _ _ h.wf (by simp [PyDict.keys]),
      h.keys]
    rfl
  · unfold buildTags store
    dsimp only
    rw [keys_foldl (fun k : Str => k) (by intro a b e; exact e) (fun d : Doctag => d.docCount) _ _ h.wf (by simp [PyDict.keys]), h.keys]
    simp [PyDict.keys]

theorem intPrefix_ints (m : Nat) (l : List Str) (i : Nat) :
    intPrefix Tag.asInt i ((((List.range' i m).map fun j : Nat => Tag.int (j : Int)) ++ l.map Tag.str).map some) = m := by
  induction m generalizing i with
  | zero =>
    cases l with
    | nil => rfl
    | cons k l => simp [intPrefix, Tag.asInt]
  | succ m ih =>
    rw [List.range'_succ]
    simp only [List.map_cons, List.cons_append]
    rw [intPrefix, if_pos (by simp [Tag.asInt])]
    rw [ih (i + 1)]

/-- the string tags in the order in which they are written, with their counts -/
theorem tag_store (docs : List (Nat × List (Tag Str))) (m : D2V V N) (hm : m.tags = buildTags docs)
    (h0 : (buildTags docs).docCount ≠ []) :
    ∃ strs : List Str, storeOrder m.dv (m.docCount.map fun f k => (f k : Int)) = strs.map Tag.str ∧
      strs.Perm (scan docs).list ∧ strs.Pairwise (fun a b => occurrences docs b ≤ occurrences docs a) ∧
      ∀ k ∈ strs, ((m.docCount.getD fun _ => 0) (Tag.str k)) = occurrences docs k := by
  have h := inv_scan docs
  obtain ⟨k1, k2⟩ := keyToIndex_keys docs
  have hc : m.docCount = some (docCountOf (buildTags docs)) := by
    unfold D2V.docCount
    rw [hm, if_neg h0]
  rw [hc]
  obtain ⟨o1, o2, _⟩ := C40_order m.dv fun t : Tag Str => ((docCountOf (buildTags docs) t : Nat) : Int)
  have hk : m.dv.keyToIndex.keys = (scan docs).list.map Tag.str := by
    unfold D2V.dv; dsimp only; rw [hm, k1]
  rw [hk] at o2
  have hex : ∃ strs : List Str, storeOrder m.dv (some fun t : Tag Str => ((docCountOf (buildTags docs) t : Nat) : Int)) = strs.map Tag.str := by
    have : ∀ l : List (Tag Str), (∀ t ∈ l, ∃ k, t = Tag.str k) → ∃ strs : List Str, l = strs.map Tag.str := by
      intro l
      induction l with
      | nil => exact fun _ => ⟨[], rfl⟩
      | cons t l ih =>
        intro hl
        obtain ⟨k, rfl⟩ := hl t (by simp)
        obtain ⟨ks, rfl⟩ := ih fun t ht => hl t (by simp [ht])
        exact ⟨k :: ks, rfl⟩
    apply this
    intro t ht
    obtain ⟨k, _, rfl⟩ := List.mem_map.1 (o2.mem_iff.1 ht)
    exact ⟨k, rfl⟩
  obtain ⟨strs, hs⟩ := hex
  rw [hs] at o1 o2
  have hperm : strs.Perm (scan docs).list := by
    have := o2.map (fun t : Tag Str => match t with | .str k => k | .int _ => [])
    simpa [Function.comp_def] using this
  have hcnt : ∀ k ∈ strs, ((buildTags docs).docCount.get? k).getD 0 = occurrences docs k := by
    intro k hk
    have : k ∈ (scan docs).list := hperm.mem_iff.1 hk
    rw [h.mem] at this
    rw [(C37_counts docs k ?_).1]
    · rfl
    · unfold occ at this
      rw [List.countP_pos_iff] at this
      obtain ⟨p, hp, e⟩ := this
      obtain ⟨d, hd, hp⟩ := List.mem_flatMap.1 hp
      obtain ⟨t, ht, rfl⟩ := List.mem_map.1 hp
      have e : t = Tag.str k := by simpa using e
      exact ⟨d, hd, e ▸ ht⟩
  refine ⟨strs, ?_, hperm, ?_, fun k hk => by simpa [docCountOf] using hcnt k hk⟩
  · simpa using hs
  · rw [List.pairwise_map] at o1
    refine o1.imp_of_mem ?_
    intro a b ha hb hab
    simp only [docCountOf] at hab
    rw [hcnt a ha, hcnt b hb] at hab
    exact_mod_cast hab

/-- the keys written for the tags: the tags in their order, and if there are only integers all of them again -/
theorem tag_keys (docs : List (Nat × List (Tag Str))) (m : D2V V N) (hm : m.tags = buildTags docs) :
    ∃ order E, TagOrder docs order ∧ (E = [] ∨ E = order) ∧
      keysToWrite Tag.asInt (fun i : Nat => Tag.int (i : Int)) m.dv (m.docCount.map fun f k => (f k : Int)) = order ++ E ∧
      ((buildTags docs).docCount ≠ [] → E = []) := by
  have h := inv_scan docs
  obtain ⟨k1, k2⟩ := keyToIndex_keys docs
  obtain ⟨n, hn⟩ : ∃ n, (buildTags docs).indexToKey = (List.range n).map (fun i : Nat => Tag.int (i : Int)) ++ (scan docs).list.map Tag.str :=
    ⟨_, rfl⟩
  have hpre : intPrefix Tag.asInt 0 m.dv.indexToKey = n := by
    unfold D2V.dv
    dsimp only
    rw [hm, hn, List.range_eq_range']
    exact intPrefix_ints n _ 0
  by_cases h0 : (buildTags docs).docCount = []
  · have hl : (scan docs).list = [] := by rw [← k2, h0]; rfl
    refine ⟨(List.range n).map fun i : Nat => Tag.int (i : Int), _, ⟨n, [], by simp, ?_, List.Pairwise.nil⟩, Or.inr rfl, ?_,
      fun h => absurd h0 h⟩
    · rw [hn, hl]; simp
    · unfold keysToWrite D2V.docCount
      rw [hpre, hm, if_pos h0]
      unfold storeOrder D2V.dv
      simp only [Option.map_none]
      rw [hm, hn, hl]
      simp
  · obtain ⟨strs, hs, hp, ho, _⟩ := tag_store docs m hm h0
    refine ⟨(List.range n).map (fun i : Nat => Tag.int (i : Int)) ++ strs.map Tag.str, [], ⟨n, strs, rfl, ?_, ho⟩, Or.inl rfl, ?_, fun _ => rfl⟩
    · rw [hn]
      exact List.Perm.append_left _ (hp.symm.map _)
    · unfold keysToWrite
      rw [hpre, hs, List.append_nil]

/-! ## The property -/

/-- the names of the tags in the file -/
def tagName (pre : Str) (t : Tag Str) : Str := pre ++ showTag t

/-- the model `m` holds the words of `d` and the tags of the corpus `docs`, with a vector for each -/
structure Holds (m : D2V V N) (d : PyDict Str V) (docs : List (Nat × List (Tag Str))) : Prop where
  words : Repr m.wv d
  full : none ∉ m.wv.indexToKey
  tags : m.tags = buildTags docs
  vecs : m.vecs.length = (buildTags docs).indexToKey.length

/-- no word and no tag is confused with another one when written -/
structure Distinct (d : PyDict Str V) (docs : List (Nat × List (Tag Str))) (pre : Str) : Prop where
  words : ∀ w ∈ d.keys, ∀ t ∈ (buildTags docs).indexToKey, w ≠ tagName pre t
  tags : ∀ a ∈ (buildTags docs).indexToKey, ∀ b ∈ (buildTags docs).indexToKey, showTag a = showTag b → a = b

theorem tag_vec {m : D2V V N} {d : PyDict Str V} {docs : List (Nat × List (Tag Str))} (hm : Holds m d docs) (r : Nat) (t : Tag Str)
    (ht : (buildTags docs).indexToKey[r]? = some t) : getVector Tag.asInt m.dv t = m.vecs[r]? ∧ (m.vecs[r]?).isSome := by
  have h1 := index_rows docs m.vecs r t ht m.wv m.counts
  have e : (⟨m.wv, m.counts, buildTags docs, m.vecs⟩ : D2V V N) = m := by rw [← hm.tags]
  rw [e] at h1
  constructor
  · unfold getVector
    rw [h1]
    rfl
  · have : r < m.vecs.length := by rw [hm.vecs]; exact (List.getElem?_eq_some_iff.1 ht).1
    rw [List.getElem?_eq_getElem this]
    rfl

/-- what is written for the words -/
theorem words_saved (record : Str → V → Str) (dflt : V) (size : Nat) {m : D2V V N} {d : PyDict Str V} {docs : List (Nat × List (Tag Str))}
    (hm : Holds m d docs) (total : Option Nat) (fs : Files) :
    saveKv (fun _ => none) (fun _ => []) id record size m.wv m.counts total true false false fs
      = (⟨some (fileOf record (total.getD m.wv.indexToKey.length) size (written m.wv (m.counts.map fun f k => (f k : Int)))), fs.vocab⟩, none) := by
  obtain ⟨h1, h2, h3⟩ := storeOrder_perm m.wv d hm.words hm.full (m.counts.map fun f k => (f k : Int))
  have hg : ∀ k, getVector (fun _ => none) m.wv k = d.get? k := by
    intro k
    unfold getVector
    rw [getIndex_eq rfl, hm.words.val]
  unfold saveKv
  simp only [Bool.false_and, Bool.false_eq_true, if_false]
  rw [if_neg (by rw [hm.words.len]; simp)]
  unfold keysToWrite
  rw [intPrefix_none, List.range_zero, List.map_nil, List.nil_append]
  have hall : ∀ k ∈ storeOrder m.wv (m.counts.map fun f k => (f k : Int)), (getVector (fun _ => none) m.wv k).isSome := by
    intro k hk
    rw [hg]
    exact (get?_isSome_iff d k).2 ((h3 k).1 hk)
  rw [putRecords_all _ _ dflt _ hall]
  have hw : (storeOrder m.wv (m.counts.map fun f k => (f k : Int))).map (fun k => record (id k) ((getVector (fun _ => none) m.wv k).getD dflt))
      = (written m.wv (m.counts.map fun f k => (f k : Int))).map fun p => record p.1 p.2 := by
    unfold written
    generalize storeOrder m.wv (m.counts.map fun f k => (f k : Int)) = l at hall
    clear h1 h2 h3
    induction l with
    | nil => rfl
    | cons k l ih =>
      obtain ⟨v, hv⟩ := Option.isSome_iff_exists.1 (hall k (by simp))
      rw [List.map_cons, ih fun k hk => hall k (by simp [hk]), List.filterMap_cons_some (b := (k, v)) (by rw [hv]; rfl)]
      simp [hv]
  rw [hw]
  simp [opened, fileOf]

/-- what is written for the tags -/
theorem tags_saved (record : Str → V → Str) (dflt : V) (size : Nat) {m : D2V V N} {d : PyDict Str V} {docs : List (Nat × List (Tag Str))}
    (hm : Holds m d docs) (pre : Str) :
    ∃ order E, TagOrder docs order ∧ (E = [] ∨ E = order) ∧ ∀ (header append : Bool) (fs : Files),
      saveKv Tag.asInt (fun i => .int i) (fun t => pre ++ showTag t) record size m.dv m.docCount none header append false fs
        = (⟨some (opened append fs.main ++
            (if header then showNat order.length ++ [' '] ++ showNat size ++ ['\n'] else []) ++
            (((order ++ E).map fun t => (tagName pre t, (getVector Tag.asInt m.dv t).getD dflt)).map fun p => record p.1 p.2).flatten),
          fs.vocab⟩, none) := by
  obtain ⟨order, E, h1, h2, h3, _⟩ := tag_keys docs m hm.tags
  refine ⟨order, E, h1, h2, ?_⟩
  intro header append fs
  obtain ⟨n, strs, ho, hperm, _⟩ := h1
  have hlen : m.dv.indexToKey.length = order.length := by
    unfold D2V.dv
    dsimp only
    rw [List.length_map, hm.tags, hperm.length_eq]
  have hv : m.dv.vectors.length = m.dv.indexToKey.length := by
    unfold D2V.dv
    dsimp only
    rw [List.length_map, hm.tags, hm.vecs]
  unfold saveKv
  simp only [Bool.false_and, Bool.false_eq_true, if_false]
  rw [if_neg (by rw [hv]; simp), h3]
  rw [putRecords_all _ _ dflt _ (by
    intro t ht
    have hmem : t ∈ order := by
      rcases List.mem_append.1 ht with h | h
      · exact h
      · rcases h2 with rfl | rfl
        · simp at h
        · exact h
    obtain ⟨r, hr⟩ := List.getElem?_of_mem (hperm.mem_iff.2 hmem)
    rw [(tag_vec hm r t hr).1]
    exact (tag_vec hm r t hr).2)]
  simp only [if_true, List.map_map, Option.getD_none, hlen]
  rfl

/-- the records of the words and tags, and what is behind them -/
theorem both_saved (record : Str → V → Str) (dflt : V) (size : Nat) {m : D2V V N} {d : PyDict Str V} {docs : List (Nat × List (Tag Str))}
    (hm : Holds m d docs) (pre : Str) (fs : Files) (hd : Distinct d docs pre) :
    ∃ order F E, TagOrder docs order ∧
      saveD2V record size m true true pre false fs = (⟨some (fileOf record F.length size (F ++ E)), fs.vocab⟩, none) ∧
      (F.map Prod.fst).Nodup ∧ (∀ p ∈ E, p ∈ F) ∧
      F.map Prod.fst = storeOrder m.wv (m.counts.map fun f k => (f k : Int)) ++ order.map (tagName pre) ∧
      (∀ p ∈ F, d.get? p.1 = some p.2 ∨ ∃ (r : Nat) (t : Tag Str), (buildTags docs).indexToKey[r]? = some t ∧ p.1 = tagName pre t ∧ m.vecs[r]? = some p.2) ∧
      (∀ w v, d.get? w = some v → (w, v) ∈ F) ∧
      (∀ (r : Nat) (t : Tag Str) (v : V), (buildTags docs).indexToKey[r]? = some t → m.vecs[r]? = some v → (tagName pre t, v) ∈ F) := by
  obtain ⟨order, E, h1, h2, h3⟩ := tags_saved record dflt size hm pre
  obtain ⟨w1, w2⟩ := written_spec m.wv d hm.words hm.full (m.counts.map fun f k => (f k : Int))
  obtain ⟨o1, o2, o3⟩ := storeOrder_perm m.wv d hm.words hm.full (m.counts.map fun f k => (f k : Int))
  have hperm : (buildTags docs).indexToKey.Perm order := by
    obtain ⟨n, strs, _, hp, _⟩ := h1
    exact hp
  have hval : ∀ (r : Nat) (t : Tag Str) (v : V), (buildTags docs).indexToKey[r]? = some t → m.vecs[r]? = some v → (getVector Tag.asInt m.dv t).getD dflt = v := by
    intro r t v h4 h5
    rw [(tag_vec hm r t h4).1, h5]
    rfl
  refine ⟨order, written m.wv (m.counts.map fun f k => (f k : Int)) ++ order.map (fun t => (tagName pre t, (getVector Tag.asInt m.dv t).getD dflt)),
    E.map (fun t => (tagName pre t, (getVector Tag.asInt m.dv t).getD dflt)), h1, ?_, ?_, ?_, ?_, ?_, ?_, ?_⟩
  · unfold saveD2V
    simp only [if_true]
    rw [words_saved record dflt size hm]
    dsimp only
    rw [h3]
    have hl : m.wv.indexToKey.length + m.tags.indexToKey.length =
        (written m.wv (m.counts.map fun f k => (f k : Int)) ++ order.map (fun t => (tagName pre t, (getVector Tag.asInt m.dv t).getD dflt))).length := by
      rw [List.length_append, List.length_map, ← hperm.length_eq, ← hm.tags, ← o2, ← w1, List.length_map]
    rw [Option.getD_some, hl]
    simp [opened, fileOf]
  · rw [List.map_append, w1, List.map_map, List.nodup_append]
    refine ⟨o1, ?_, ?_⟩
    · have hnd : order.Nodup := hperm.nodup_iff.1 (index_nodup docs)
      refine List.Nodup.map_on ?_ hnd
      intro a ha b hb e
      simp only [Function.comp, tagName] at e
      exact hd.tags a (hperm.mem_iff.2 ha) b (hperm.mem_iff.2 hb) (List.append_cancel_left e)
    · intro a ha b hb e
      obtain ⟨t, ht, rfl⟩ := List.mem_map.1 hb
      exact hd.words a ((o3 a).1 ha) t (hperm.mem_iff.2 ht) e
  · intro p hp
    rcases h2 with rfl | rfl
    · simp at hp
    · exact List.mem_append.2 (Or.inr hp)
  · rw [List.map_append, w1, List.map_map]
    rfl
  · intro p hp
    rcases List.mem_append.1 hp with hp | hp
    · exact Or.inl ((w2 p.1 p.2).1 hp)
    · obtain ⟨t, ht, rfl⟩ := List.mem_map.1 hp
      obtain ⟨r, hr⟩ := List.getElem?_of_mem (hperm.mem_iff.2 ht)
      obtain ⟨v, hv⟩ := Option.isSome_iff_exists.1 (tag_vec hm r t hr).2
      exact Or.inr ⟨r, t, hr, rfl, by rw [hval r t v hr hv]; exact hv⟩
  · intro w v h
    exact List.mem_append.2 (Or.inl ((w2 w v).2 h))
  · intro r t v hr hv
    refine List.mem_append.2 (Or.inr (List.mem_map.2 ⟨t, hperm.mem_iff.1 (List.mem_of_getElem? hr), ?_⟩))
    rw [hval r t v hr hv]

/-- what a loaded file must contain: all words and tags with their vectors, in this order -/
def Back (st : Loading Str V N) (m : D2V V N) (d : PyDict Str V) (docs : List (Nat × List (Tag Str))) (pre : Str) : Prop :=
  (∃ order, TagOrder docs order ∧
    st.kv.indexToKey = (storeOrder m.wv (m.counts.map fun f k => (f k : Int)) ++ order.map (tagName pre)).map some) ∧
  (∀ w v, d.get? w = some v → getVector (fun _ => none) st.kv w = some v) ∧
  (∀ (r : Nat) (t : Tag Str) (v : V), (buildTags docs).indexToKey[r]? = some t → m.vecs[r]? = some v →
    getVector (fun _ => none) st.kv (pre ++ showTag t) = some v)

theorem back_loaded (zero : V) {m : D2V V N} {d : PyDict Str V} {docs : List (Nat × List (Tag Str))} (pre : Str)
    (order : List (Tag Str)) (ho : TagOrder docs order) (F : List (Str × V)) (hn : (F.map Prod.fst).Nodup)
    (hF : F.map Prod.fst = storeOrder m.wv (m.counts.map fun f k => (f k : Int)) ++ order.map (tagName pre))
    (hw : ∀ w v, d.get? w = some v → (w, v) ∈ F)
    (ht : ∀ (r : Nat) (t : Tag Str) (v : V), (buildTags docs).indexToKey[r]? = some t → m.vecs[r]? = some v → (tagName pre t, v) ∈ F) :
    Back (loaded zero F.length F : Loading Str V N) m d docs pre := by
  refine ⟨⟨order, ho, ?_⟩, ?_, ?_⟩
  · unfold loaded
    dsimp only
    rw [Nat.sub_self, List.replicate_zero, List.append_nil, ← hF, List.map_map]
    rfl
  · intro w v h
    exact (loaded_getVector zero _ F hn w v).2 (hw w v h)
  · intro r t v h1 h2
    exact (loaded_getVector zero _ F hn _ v).2 (ht r t v h1 h2)

/-- **C138.** Text format: the words and tags of a model saved together are all loaded with their vectors, the words by
their counts, then the integer tags, then the string tags by their number of documents.  (If there are only integer
tags, all of them are written twice; the second ones are not read.) -/
theorem C138_text {W : Type} (C : Codec W) (zero : W) (size : Nat) (hs : 1 ≤ size) {m : D2V (List W) N} {d : PyDict Str (List W)}
    {docs : List (Nat × List (Tag Str))} (hm : Holds m d docs) (pre : Str) (fs : Files) (hd : Distinct d docs pre)
    (hw : ∀ w v, d.get? w = some v → ' ' ∉ w ∧ '\n' ∉ w ∧ v.length = size)
    (ht : ∀ t ∈ (buildTags docs).indexToKey, ' ' ∉ pre ++ showTag t ∧ '\n' ∉ pre ++ showTag t)
    (hv : ∀ v ∈ m.vecs, v.length = size) :
    ∃ file st, saveD2V (textRecord C.enc) size m true true pre false fs = (⟨some file, fs.vocab⟩, none) ∧
      (loadText C.dec zero none file : Load (Loading Str (List W) N)) = .ok st ∧ Back st m d docs pre := by
  obtain ⟨order, F, E, h1, h2, h3, h4, h5, h6, h7, h8⟩ := both_saved (textRecord C.enc) [] size hm pre fs hd
  refine ⟨_, _, h2, load_text C zero size hs F E ?_ h3, back_loaded _ pre order h1 F h3 h5 h7 h8⟩
  intro p hp
  have hp : p ∈ F := by
    rcases List.mem_append.1 hp with h | h
    · exact h
    · exact h4 p h
  rcases h6 p hp with h | ⟨r, t, h9, h10, h11⟩
  · exact hw _ _ h
  · obtain ⟨a, b⟩ := ht t (List.mem_of_getElem? h9)
    rw [h10]
    exact ⟨a, b, hv _ (List.mem_of_getElem? h11)⟩

/-- **C138.** The same in the binary format, however large the pieces are in which it is read. -/
theorem C138_binary (encode decode : Str → Str) (toBytes : V → Str) (parse : Str → V) (zero : Nat → V) (bytes : Nat → Nat)
    (c : Nat) (hc : 1 ≤ c) (size : Nat) (dflt : V) {m : D2V V N} {d : PyDict Str V}
    {docs : List (Nat × List (Tag Str))} (hm : Holds m d docs) (pre : Str) (fs : Files) (hd : Distinct d docs pre)
    (hk : ∀ k, k ∈ d.keys ∨ (∃ t ∈ (buildTags docs).indexToKey, k = pre ++ showTag t) →
      decode (encode k) = k ∧ ' ' ∉ encode k ∧ (encode k).head? ≠ some '\n')
    (hv : ∀ v, (∃ w, d.get? w = some v) ∨ v ∈ m.vecs → parse (toBytes v) = v ∧ (toBytes v).length = bytes size) :
    ∃ file st, saveD2V (binaryRecord encode toBytes) size m true true pre false fs = (⟨some file, fs.vocab⟩, none) ∧
      (loadBinary decode parse zero bytes c none file : Load (Loading Str V N)) = .ok st ∧ Back st m d docs pre := by
  obtain ⟨order, F, E, h1, h2, h3, h4, h5, h6, h7, h8⟩ := both_saved (binaryRecord encode toBytes) dflt size hm pre fs hd
  refine ⟨_, _, h2, load_binary encode decode toBytes parse zero bytes c hc size F E ?_ h3, back_loaded _ pre order h1 F h3 h5 h7 h8⟩
  intro p hp
  have hp : p ∈ F := by
    rcases List.mem_append.1 hp with h | h
    · exact h
    · exact h4 p h
  rcases h6 p hp with h | ⟨r, t, h9, h10, h11⟩
  · obtain ⟨a, b, c⟩ := hk p.1 (Or.inl ((get?_isSome_iff d p.1).1 (by rw [h]; rfl)))
    obtain ⟨e, f⟩ := hv p.2 (Or.inl ⟨_, h⟩)
    exact ⟨a, b, c, e, f⟩
  · obtain ⟨a, b, c⟩ := hk p.1 (Or.inr ⟨t, List.mem_of_getElem? h9, h10⟩)
    obtain ⟨e, f⟩ := hv p.2 (Or.inr (List.mem_of_getElem? h11))
    exact ⟨a, b, c, e, f⟩

/-- **C138.** Only words, only tags, or nothing. -/
theorem C138_parts (record : Str → V → Str) (dflt : V) (size : Nat) {m : D2V V N} {d : PyDict Str V} {docs : List (Nat × List (Tag Str))}
    (hm : Holds m d docs) (pre : Str) (fs : Files) :
    saveD2V record size m false true pre false fs
      = (⟨some (fileOf record m.wv.indexToKey.length size (written m.wv (m.counts.map fun f k => (f k : Int)))), fs.vocab⟩, none) ∧
    (∃ order E, TagOrder docs order ∧ (E = [] ∨ E = order) ∧
      saveD2V record size m true false pre false fs
        = (⟨some (fileOf record order.length size
            ((order ++ E).map fun t => (tagName pre t, (getVector Tag.asInt m.dv t).getD dflt))), fs.vocab⟩, none)) ∧
    saveD2V record size m false false pre false fs = (fs, none) := by
  refine ⟨?_, ?_, rfl⟩
  · unfold saveD2V
    simp only [if_true, Bool.false_eq_true, if_false]
    rw [words_saved record dflt size hm]
    rfl
  · obtain ⟨order, E, h1, h2, h3⟩ := tags_saved record dflt size hm pre
    refine ⟨order, E, h1, h2, ?_⟩
    unfold saveD2V
    simp only [if_true, Bool.false_eq_true, if_false]
    rw [h3]
    simp [opened, fileOf]

/-! ### Findings -/

/-- the lines of a vocabulary file -/
def vocabLines (l : List (Str × Nat)) : Str := (l.map fun p => p.1 ++ [' '] ++ showNat p.2 ++ ['\n']).flatten

/-- **C138.** The file of the vocabulary: the words with their counts and the string tags with the number of documents they
occur in (the integer tags are not listed), and the vectors are stored as without it. -/
theorem C138_vocab (record : Str → V → Str) (size : Nat) {m : D2V V N} {d : PyDict Str V} {docs : List (Nat × List (Tag Str))}
    (hm : Holds m d docs) (cnt : Str → Nat) (hc : m.counts = some cnt) (pre : Str) (fs : Files) (doc : Nat × List (Tag Str)) (hdoc : doc ∈ docs)
    (t : Str) (ht : Tag.str t ∈ doc.2) :
    ∃ strs : List Str, (∀ k, k ∈ strs ↔ ∃ doc ∈ docs, Tag.str k ∈ doc.2) ∧ strs.Nodup ∧
      strs.Pairwise (fun a b => occurrences docs b ≤ occurrences docs a) ∧
      saveD2V record size m true true pre true fs =
        (⟨(saveD2V record size m true true pre false fs).1.main,
          some (vocabLines ((storeOrder m.wv (some fun k => (cnt k : Int))).map fun k => (k, cnt k)) ++
            vocabLines (strs.map fun k => (pre ++ k, occurrences docs k)))⟩, none) := by
  have hl : ∀ k, k ∈ (scan docs).list ↔ ∃ doc ∈ docs, Tag.str k ∈ doc.2 := by
    intro k
    rw [(inv_scan docs).mem]
    unfold occ
    rw [List.countP_pos_iff]
    constructor
    · rintro ⟨p, hp, e⟩
      obtain ⟨d, hd, hp⟩ := List.mem_flatMap.1 hp
      obtain ⟨u, hu, rfl⟩ := List.mem_map.1 hp
      have e : u = Tag.str k := by simpa using e
      exact ⟨d, hd, e ▸ hu⟩
    · rintro ⟨d, hd, hk⟩
      exact ⟨(d.1, Tag.str k), List.mem_flatMap.mpr ⟨d, hd, List.mem_map.mpr ⟨_, hk, rfl⟩⟩, by simp⟩
  have h0 : (buildTags docs).docCount ≠ [] := by
    intro e
    have h1 := (keyToIndex_keys docs).2
    rw [e] at h1
    have : t ∈ (scan docs).list := (hl t).2 ⟨doc, hdoc, ht⟩
    rw [← h1] at this
    simp [PyDict.keys] at this
  obtain ⟨strs, s1, s2, s3, s4⟩ := tag_store docs m hm.tags h0
  refine ⟨strs, fun k => by rw [s2.mem_iff, hl], s2.nodup_iff.2 (scan_nodup docs), s3, ?_⟩
  have hdv : ¬ m.dv.vectors.length ≠ m.dv.indexToKey.length := by
    unfold D2V.dv
    dsimp only
    rw [List.length_map, hm.tags, hm.vecs]
    simp
  have hwv : ¬ m.wv.vectors.length ≠ m.wv.indexToKey.length := by rw [hm.words.len]; simp
  obtain ⟨cd, hcd⟩ : ∃ cd, m.docCount = some cd := by
    unfold D2V.docCount
    rw [hm.tags, if_neg h0]
    exact ⟨_, rfl⟩
  obtain ⟨dflt⟩ : Nonempty V := by
    have : (buildTags docs).indexToKey ≠ [] := by
      intro e
      have h2 : (buildTags docs).indexToKey = _ ++ (scan docs).list.map Tag.str := rfl
      rw [e] at h2
      have : t ∈ (scan docs).list := (hl t).2 ⟨doc, hdoc, ht⟩
      have h3 := (List.append_eq_nil_iff.1 h2.symm).2
      rw [List.map_eq_nil_iff] at h3
      rw [h3] at this
      simp at this
    have h4 : 0 < m.vecs.length := by rw [hm.vecs]; exact List.length_pos_iff.2 this
    exact ⟨m.vecs[0]⟩
  have hw := words_saved record dflt size hm (some (m.wv.indexToKey.length + m.tags.indexToKey.length)) fs
  obtain ⟨order, E, _, _, htag⟩ := tags_saved record dflt size hm pre
  have hw2 : saveKv (fun _ => none) (fun _ => []) id record size m.wv m.counts (some (m.wv.indexToKey.length + m.tags.indexToKey.length)) true false true fs
      = (⟨(saveKv (fun _ => none) (fun _ => []) id record size m.wv m.counts (some (m.wv.indexToKey.length + m.tags.indexToKey.length)) true false false fs).1.main,
          some (vocabLines ((storeOrder m.wv (some fun k => (cnt k : Int))).map fun k => (k, cnt k)))⟩, none) := by
    have hw3 := congrArg (fun r => r.2) hw
    dsimp only at hw3
    unfold saveKv at hw3 ⊢
    simp only [Bool.false_and, Bool.false_eq_true, if_false, Bool.true_and, hc, Option.isNone_some, if_true, Option.map_some,
      Option.getD_some] at hw3 ⊢
    rw [if_neg hwv] at hw3 ⊢
    rw [if_neg hwv]
    dsimp only at hw3 ⊢
    rw [hw3]
    simp [opened, vocabLines, Function.comp_def]
  have ht2 : ∀ fs' : Files, saveKv Tag.asInt (fun i => .int i) (fun t => pre ++ showTag t) record size m.dv m.docCount none false true true fs'
      = (⟨(saveKv Tag.asInt (fun i => .int i) (fun t => pre ++ showTag t) record size m.dv m.docCount none false true false fs').1.main,
          some (fs'.vocab.getD [] ++ vocabLines (strs.map fun k => (pre ++ k, occurrences docs k)))⟩, none) := by
    intro fs'
    have hw3 := congrArg (fun r => r.2) (htag false true fs')
    dsimp only at hw3
    rw [hcd] at s1 s4
    simp only [Option.map_some, Option.getD_some] at s1 s4
    unfold saveKv at hw3 ⊢
    simp only [Bool.false_and, Bool.false_eq_true, if_false, Bool.true_and, hcd, Option.isNone_some, if_true, Option.map_some,
      Option.getD_some] at hw3 ⊢
    rw [if_neg hdv] at hw3 ⊢
    rw [if_neg hdv]
    dsimp only at hw3 ⊢
    rw [hw3, s1]
    have : (strs.map Tag.str).map (fun k => pre ++ showTag k ++ [' '] ++ showNat (cd k) ++ ['\n']) =
        strs.map fun k => pre ++ k ++ [' '] ++ showNat (occurrences docs k) ++ ['\n'] := by
      rw [List.map_map]
      apply List.map_congr_left
      intro k hk
      simp only [Function.comp, showTag, s4 k hk]
    rw [this]
    simp [opened, vocabLines, Function.comp_def]
  unfold saveD2V
  simp only [if_true]
  rw [hw2]
  dsimp only
  rw [hw]
  simp only [Bool.not_true]
  rw [ht2, htag]
  dsimp only
  rw [htag]
  simp [opened]

/-- **C138 (finding).** If the vocabulary is to be stored too and the tags are all integers, an exception is raised after
the words have been written: what is left announces more rows than it has, and cannot be loaded. -/
theorem C138_vocab_integers {W : Type} (C : Codec W) (zero : W) (size : Nat) {m : D2V (List W) N} {d : PyDict Str (List W)}
    {docs : List (Nat × List (Tag Str))} (hm : Holds m d docs) (hc : m.counts.isSome) (pre : Str) (fs : Files)
    (hno : ∀ doc ∈ docs, ∀ t, Tag.str t ∉ doc.2) (hint : (buildTags docs).indexToKey ≠ [])
    (hw : ∀ w v, d.get? w = some v → ' ' ∉ w ∧ '\n' ∉ w ∧ v.length = size) :
    ∃ file voc, saveD2V (textRecord C.enc) size m true true pre true fs = (⟨some file, some voc⟩, some .noAttr) ∧
      (loadText C.dec zero none file : Load (Loading Str (List W) N)) = .error := by
  obtain ⟨w1, w2⟩ := written_spec m.wv d hm.words hm.full (m.counts.map fun f k => (f k : Int))
  obtain ⟨o1, o2, o3⟩ := storeOrder_perm m.wv d hm.words hm.full (m.counts.map fun f k => (f k : Int))
  have hl : (scan docs).list = [] := by
    rw [List.eq_nil_iff_forall_not_mem]
    intro t ht
    rw [(inv_scan docs).mem] at ht
    unfold occ at ht
    rw [List.countP_pos_iff] at ht
    obtain ⟨p, hp, e⟩ := ht
    obtain ⟨d, hd, hp⟩ := List.mem_flatMap.1 hp
    obtain ⟨u, hu, rfl⟩ := List.mem_map.1 hp
    have e : u = Tag.str t := by simpa using e
    exact hno d hd t (e ▸ hu)
  have h0 : (buildTags docs).docCount = [] := by
    have := (keyToIndex_keys docs).2
    rw [hl] at this
    exact List.map_eq_nil_iff.1 this
  have hdc : m.docCount = none := by unfold D2V.docCount; rw [hm.tags, if_pos h0]
  obtain ⟨cnt, hcnt⟩ := Option.isSome_iff_exists.1 hc
  -- the words are saved as without vocabulary
  have hsame : ∀ total, ∃ voc, saveKv (fun _ => none) (fun _ => []) id (textRecord C.enc) size m.wv m.counts total true false true fs
      = (⟨some (fileOf (textRecord C.enc) (total.getD m.wv.indexToKey.length) size (written m.wv (m.counts.map fun f k => (f k : Int)))), some voc⟩, none) := by
    intro total
    have := words_saved (textRecord C.enc) [] size hm total fs
    unfold saveKv at this ⊢
    simp only [Bool.false_and, Bool.false_eq_true, if_false, Bool.true_and, hcnt, Option.isNone_some, if_true] at this ⊢
    rw [if_neg (by rw [hm.words.len]; simp)] at this ⊢
    simp only [Prod.mk.injEq, Files.mk.injEq] at this ⊢
    refine ⟨_, ⟨?_, rfl⟩, this.2⟩
    exact this.1.1
  obtain ⟨voc, hv⟩ := hsame (some (m.wv.indexToKey.length + m.tags.indexToKey.length))
  refine ⟨fileOf (textRecord C.enc) (m.wv.indexToKey.length + m.tags.indexToKey.length) size
    (written m.wv (m.counts.map fun f k => (f k : Int))), voc, ?_, ?_⟩
  · unfold saveD2V
    simp only [if_true]
    rw [hv]
    dsimp only
    unfold saveKv
    rw [hdc]
    rfl
  · unfold loadText fileOf
    rw [pyLines_cons_line (header_no_newline _ _)]
    dsimp only
    rw [readHeader_show]
    dsimp only
    apply C40_text_too_short
    have hlines := pyLines_flatten (ls := (written m.wv (m.counts.map fun f k => (f k : Int))).map
        (fun p => p.1 ++ [' '] ++ joinWith [' '] (p.2.map C.enc))) (by
      intro l hl hc
      obtain ⟨p, hp, rfl⟩ := List.mem_map.mp hl
      exact no_newline C p.1 (hw _ _ ((w2 p.1 p.2).1 hp)).2.1 p.2 hc)
    rw [List.map_map] at hlines
    have e : (written m.wv (m.counts.map fun f k => (f k : Int))).map (fun p => textRecord C.enc p.1 p.2) =
        (written m.wv (m.counts.map fun f k => (f k : Int))).map ((fun l => l ++ ['\n']) ∘ fun p => p.1 ++ [' '] ++ joinWith [' '] (p.2.map C.enc)) := rfl
    rw [e, hlines, List.length_map, ← List.length_map (f := Prod.fst), w1, o2, hm.tags]
    have := List.length_pos_iff.2 hint
    omega

/-- a model with the word `a`, the integer tags 0 and 1 and the string tag `t` -/
def exD2V (t : Str) : D2V (List Int) Nat :=
  ⟨⟨[some ['a']], [(['a'], 0)], [[1, 2]], 1, none⟩, some fun _ => 3, buildTags [(3, [Tag.int 1, Tag.str t])], [[3, 4], [5, 6], [7, 8]]⟩

/-- what is saved and loaded back for a model and a tag `x` -/
example : saveD2V (textRecord intCodec.enc) 2 (exD2V ['x']) true true ['*'] true ⟨none, none⟩
    = (⟨some "4 2\na 1 2\n*0 3 4\n*1 5 6\n*x 7 8\n".toList, some "a 3\n*x 1\n".toList⟩, none) := by decide +kernel

/-- **C138 (finding).** A string tag that looks like an integer tag loses its vector: of the tags `1` and `'1'` only the
first is loaded. -/
theorem C138_confused :
    saveD2V (textRecord intCodec.enc) 2 (exD2V ['1']) true true ['*'] false ⟨none, none⟩
      = (⟨some "4 2\na 1 2\n*0 3 4\n*1 5 6\n*1 7 8\n".toList, none⟩, none) ∧
    (loadText intCodec.dec 0 none "4 2\na 1 2\n*0 3 4\n*1 5 6\n*1 7 8\n".toList : Load (Loading Str (List Int) Nat))
      = .ok (loaded [0, 0] 4 [(['a'], [1, 2]), (['*', '0'], [3, 4]), (['*', '1'], [5, 6])]) := by decide +kernel

example : Holds (exD2V ['x']) [(['a'], [1, 2])] [(3, [Tag.int 1, Tag.str ['x']])] ∧
    Distinct ([(['a'], [1, 2])] : PyDict Str (List Int)) [(3, [Tag.int 1, Tag.str ['x']])] ['*'] := by
  have hb : (buildTags [(3, [Tag.int 1, Tag.str ['x']])]).indexToKey = [Tag.int 0, Tag.int 1, Tag.str ['x']] := by decide +kernel
  refine ⟨⟨?_, by decide, rfl, by rw [hb]; rfl⟩, ⟨?_, ?_⟩⟩
  · refine ⟨by simp [WF, PyDict.keys], by simp [WF, PyDict.keys, exD2V], rfl, ?_, ?_⟩
    · intro k i
      by_cases hk : k = ['a']
      · subst hk
        cases i <;> simp [exD2V, get?]
      · cases i <;> simp [exD2V, get?, hk, Ne.symm hk]
    · intro k
      by_cases hk : k = ['a']
      · subst hk; rfl
      · simp [exD2V, get?, Ne.symm hk]
  · intro w hw t ht
    rw [hb] at ht
    have : w = ['a'] := by simpa [PyDict.keys] using hw
    subst this
    intro e
    simp [tagName] at e
  · rw [hb]
    decide +kernel

end Verif.Doc2Vec
