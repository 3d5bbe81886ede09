import Mathlib.Tactic.Common
import Mathlib.Data.List.Nodup
import Mathlib.Data.List.Induction
import Verif.Doc2Vec.TagsModel
import Verif.KeyedVectors.StoreProps

/-!
# C37: Doc2Vec tags
-/

namespace Verif.Doc2Vec

open Verif Verif.KV PyDict

variable {κ : Type} [DecidableEq κ]

/-! ## Specification -/

/-- all tags of the corpus in order, with the length of their document -/
def stream (docs : List (Nat × List (Tag κ))) : List (Nat × Tag κ) := docs.flatMap (fun d => d.2.map (fun t => (d.1, t)))

/-- the number of occurrences of a string tag -/
def occurrences (docs : List (Nat × List (Tag κ))) (t : κ) : Nat := (docs.map (fun d => d.2.count (Tag.str t))).sum

/-- the number of words of the documents with the tag, counted once per occurrence -/
def words (docs : List (Nat × List (Tag κ))) (t : κ) : Nat := (docs.map (fun d => d.1 * d.2.count (Tag.str t))).sum

/-! ## Proofs -/

/-- occurrences in a stream -/
def occ (l : List (Nat × Tag κ)) (t : κ) : Nat := l.countP (fun p => p.2 = Tag.str t)

def wds (l : List (Nat × Tag κ)) (t : κ) : Nat := (l.map (fun p => if p.2 = Tag.str t then p.1 else 0)).sum

theorem occ_stream (docs : List (Nat × List (Tag κ))) (t : κ) : occ (stream docs) t = occurrences docs t := by
  unfold occ stream occurrences
  induction docs with
  | nil => rfl
  | cons d docs ih =>
    rw [List.flatMap_cons, List.countP_append, ih, List.map_cons, List.sum_cons, List.countP_map]
    congr 1

theorem wds_stream (docs : List (Nat × List (Tag κ))) (t : κ) : wds (stream docs) t = words docs t := by
  unfold wds stream words
  induction docs with
  | nil => rfl
  | cons d docs ih =>
    rw [List.flatMap_cons, List.map_append, List.sum_append, ih, List.map_cons, List.sum_cons, List.map_map]
    congr 1
    clear ih
    obtain ⟨n, ts⟩ := d
    dsimp only
    induction ts with
    | nil => simp
    | cons x ts ih =>
      rw [List.map_cons, List.sum_cons, ih, List.count_cons]
      simp only [Function.comp]
      by_cases hx : x = Tag.str t
      · rw [if_pos hx, if_pos (by simp [hx]), Nat.mul_add, Nat.mul_one, Nat.add_comm]
      · rw [if_neg hx, if_neg (by simpa using hx), Nat.add_zero, Nat.zero_add]

theorem scan_stream (docs : List (Nat × List (Tag κ))) :
    scan docs = (stream docs).foldl (fun s p => noteTag p.1 s p.2) ⟨-1, [], []⟩ := by
  unfold scan stream
  generalize (⟨-1, [], []⟩ : Scan κ) = s
  induction docs generalizing s with
  | nil => rfl
  | cons d docs ih =>
    rw [List.foldl_cons, List.flatMap_cons, List.foldl_append, ih, List.foldl_map]

/-- what the scan has collected after a stream of tags -/
structure Inv (l : List (Nat × Tag κ)) (s : Scan κ) : Prop where
  wf : WF s.lookup
  keys : s.lookup.keys = s.list
  pos : ∀ t d, s.lookup.get? t = some d → s.list[d.index]? = some t ∧ d.docCount = occ l t ∧ d.wordCount = wds l t
  mem : ∀ t, t ∈ s.list ↔ 0 < occ l t
  maxLe : ∀ n i, (n, Tag.int i) ∈ l → i ≤ s.maxInt
  maxMem : s.maxInt = -1 ∨ ∃ n, (n, Tag.int s.maxInt) ∈ l
  maxGe : -1 ≤ s.maxInt

theorem inv_nil : Inv [] (⟨-1, [], []⟩ : Scan κ) :=
  ⟨WF_nil, rfl, by intro t d h; simp at h, by intro t; simp [occ], by intro n i h; simp at h, .inl rfl, Int.le_refl _⟩

theorem occ_append (l : List (Nat × Tag κ)) (p : Nat × Tag κ) (t : κ) :
    occ (l ++ [p]) t = occ l t + if p.2 = Tag.str t then 1 else 0 := by
  unfold occ
  rw [List.countP_append, List.countP_singleton]
  simp

theorem wds_append (l : List (Nat × Tag κ)) (p : Nat × Tag κ) (t : κ) :
    wds (l ++ [p]) t = wds l t + if p.2 = Tag.str t then p.1 else 0 := by
  unfold wds
  rw [List.map_append, List.sum_append]
  simp

theorem inv_step {l : List (Nat × Tag κ)} {s : Scan κ} (h : Inv l s) (p : Nat × Tag κ) :
    Inv (l ++ [p]) (noteTag p.1 s p.2) := by
  obtain ⟨n, tag⟩ := p
  cases tag with
  | int i =>
    have ho : ∀ t, occ (l ++ [(n, Tag.int i)]) t = occ l t := by intro t; rw [occ_append]; simp
    have hw : ∀ t, wds (l ++ [(n, Tag.int i)]) t = wds l t := by intro t; rw [wds_append]; simp
    refine ⟨h.wf, h.keys, ?_, ?_, ?_, ?_, ?_⟩
    · intro t d hd; rw [ho, hw]; exact h.pos t d hd
    · intro t; rw [ho]; exact h.mem t
    · intro m j hj
      dsimp only [noteTag]
      rw [List.mem_append, List.mem_singleton] at hj
      rcases hj with hj | hj
      · have := h.maxLe m j hj; omega
      · simp only [Prod.mk.injEq, Tag.int.injEq] at hj; omega
    · dsimp only [noteTag]
      by_cases hm : i ≤ s.maxInt
      · rw [max_eq_left hm]
        rcases h.maxMem with e | ⟨m, e⟩
        · exact .inl e
        · exact .inr ⟨m, List.mem_append_left _ e⟩
      · rw [max_eq_right (by omega)]
        exact .inr ⟨n, by simp⟩
    · dsimp only [noteTag]; have := h.maxGe; omega
  | str x =>
    have ho : ∀ t, occ (l ++ [(n, Tag.str x)]) t = occ l t + if x = t then 1 else 0 := by
      intro t; rw [occ_append]; simp
    have hw : ∀ t, wds (l ++ [(n, Tag.str x)]) t = wds l t + if x = t then n else 0 := by
      intro t; rw [wds_append]; simp
    have hml : ∀ m i, (m, Tag.int i) ∈ l ++ [(n, Tag.str x)] → (m, Tag.int i) ∈ l := by
      intro m i hm
      rw [List.mem_append, List.mem_singleton] at hm
      rcases hm with hm | hm
      · exact hm
      · simp at hm
    have hmm : s.maxInt = -1 ∨ ∃ m, (m, Tag.int s.maxInt) ∈ l ++ [(n, Tag.str x)] := by
      rcases h.maxMem with e | ⟨m, e⟩
      · exact .inl e
      · exact .inr ⟨m, List.mem_append_left _ e⟩
    unfold noteTag
    dsimp only
    cases hx : s.lookup.get? x with
    | some d =>
      dsimp only
      have hxm : x ∈ s.lookup.keys := (get?_isSome_iff _ _).mp (by rw [hx]; rfl)
      obtain ⟨p1, p2, p3⟩ := h.pos x d hx
      refine ⟨WF_set h.wf _ _, by rw [keys_set_of_mem hxm]; exact h.keys, ?_, ?_,
        fun m i hm => h.maxLe m i (hml m i hm), hmm, h.maxGe⟩
      · intro t e he
        dsimp only at he ⊢
        rw [get?_set] at he
        rw [ho, hw]
        split at he
        · rename_i hxt
          subst hxt
          obtain rfl := Option.some.inj he
          rw [if_pos rfl, if_pos rfl]
          exact ⟨p1, by rw [p2], by rw [p3]⟩
        · rename_i hxt
          rw [if_neg hxt, if_neg hxt]
          exact h.pos t e he
      · intro t
        dsimp only
        rw [h.mem, ho]
        split
        · rename_i hxt
          subst hxt
          have := (h.mem x).mp (by rw [← h.keys]; exact hxm)
          omega
        · rfl
    | none =>
      dsimp only
      have hxm : x ∉ s.lookup.keys := (get?_eq_none_iff _ _).mp hx
      have hxl : x ∉ s.list := by rw [← h.keys]; exact hxm
      have h0 : occ l x = 0 := by
        by_contra hne
        exact hxl ((h.mem x).mpr (by omega))
      have hw0 : wds l x = 0 := by
        unfold wds occ at *
        rw [List.countP_eq_zero] at h0
        clear hml hmm ho hw h
        induction l with
        | nil => rfl
        | cons p l ih =>
          rw [List.map_cons, List.sum_cons, ih (fun q hq => h0 q (List.mem_cons_of_mem _ hq)), if_neg]
          intro e
          exact h0 p List.mem_cons_self (by simpa using e)
      refine ⟨WF_set h.wf _ _, by rw [keys_set_of_not_mem hxm, h.keys], ?_, ?_,
        fun m i hm => h.maxLe m i (hml m i hm), hmm, h.maxGe⟩
      · intro t e he
        dsimp only at he ⊢
        rw [get?_set] at he
        rw [ho, hw]
        split at he
        · rename_i hxt
          subst hxt
          obtain rfl := Option.some.inj he
          rw [if_pos rfl, if_pos rfl]
          exact ⟨by simp, by rw [h0], by rw [hw0]; simp⟩
        · rename_i hxt
          rw [if_neg hxt, if_neg hxt]
          obtain ⟨q1, q2⟩ := h.pos t e he
          refine ⟨?_, q2⟩
          rw [List.getElem?_append_left (List.getElem?_eq_some_iff.mp q1).1]
          exact q1
      · intro t
        dsimp only
        rw [List.mem_append, h.mem, ho, List.mem_singleton]
        constructor
        · rintro (e | e)
          · omega
          · rw [if_pos e.symm]; omega
        · intro e
          by_cases hxt : x = t
          · exact .inr hxt.symm
          · rw [if_neg hxt] at e; exact .inl e

theorem inv_scan (docs : List (Nat × List (Tag κ))) : Inv (stream docs) (scan docs) := by
  rw [scan_stream]
  generalize stream docs = l
  induction l using List.reverseRecOn with
  | nil => exact inv_nil
  | append_singleton l p ih =>
    rw [List.foldl_append]
    exact inv_step ih p

/-- a dictionary filled by a loop over another -/
theorem get?_foldl_map {ν μ α : Type} [DecidableEq α] (f : κ → α) (hf : ∀ a b, f a = f b → a = b) (g : ν → μ) :
    ∀ (l : PyDict κ ν) (d : PyDict α μ), WF l → ∀ k,
    PyDict.get? (l.foldl (fun d p => d.set (f p.1) (g p.2)) d) (f k) =
      match l.get? k with
      | some v => some (g v)
      | none => d.get? (f k) := by
  intro l
  induction l with
  | nil => intro d _ k; rfl
  | cons p l ih =>
    intro d hwf k
    unfold WF keys at hwf
    rw [List.map_cons, List.nodup_cons] at hwf
    rw [List.foldl_cons, ih _ hwf.2, get?_cons]
    by_cases hp : p.1 = k
    · rw [if_pos hp]
      have : PyDict.get? l k = none := by rw [get?_eq_none_iff, ← hp]; exact hwf.1
      rw [this]
      dsimp only
      rw [hp, get?_set, if_pos rfl]
    · rw [if_neg hp]
      cases PyDict.get? l k with
      | some v => rfl
      | none =>
        dsimp only
        rw [get?_set, if_neg (fun e => hp (hf _ _ e))]

theorem get?_foldl_str_int {ν μ : Type} (g : ν → μ) (i : Int) : ∀ (l : PyDict κ ν) (d : PyDict (Tag κ) μ),
    PyDict.get? (l.foldl (fun d p => d.set (Tag.str p.1) (g p.2)) d) (Tag.int i) = d.get? (Tag.int i) := by
  intro l
  induction l with
  | nil => intro d; rfl
  | cons p l ih =>
    intro d
    rw [List.foldl_cons, ih, get?_set, if_neg (by simp)]

/-- the number of rows reserved for integer tags: one more than the largest -/
theorem shift_spec (docs : List (Nat × List (Tag κ))) :
    let m := if (scan docs).maxInt > -1 then ((scan docs).maxInt + 1).toNat else 0
    (∀ doc ∈ docs, ∀ i, Tag.int i ∈ doc.2 → i < (m : Int)) ∧
    (m = 0 ∨ ∃ doc ∈ docs, Tag.int ((m : Int) - 1) ∈ doc.2) := by
  have h := inv_scan docs
  intro m
  have hm : (m : Int) = (scan docs).maxInt + 1 := by
    have := h.maxGe
    simp only [m]
    split <;> omega
  have hs : ∀ n t, (n, t) ∈ stream docs ↔ ∃ doc ∈ docs, doc.1 = n ∧ t ∈ doc.2 := by
    intro n t
    unfold stream
    rw [List.mem_flatMap]
    constructor
    · rintro ⟨d, hd, hm⟩
      obtain ⟨x, hx, e⟩ := List.mem_map.mp hm
      simp only [Prod.mk.injEq] at e
      exact ⟨d, hd, e.1, e.2 ▸ hx⟩
    · rintro ⟨d, hd, rfl, ht⟩
      exact ⟨d, hd, List.mem_map.mpr ⟨t, ht, rfl⟩⟩
  constructor
  · intro doc hdoc i hi
    have := h.maxLe doc.1 i ((hs _ _).mpr ⟨doc, hdoc, rfl, hi⟩)
    omega
  · rcases h.maxMem with e | ⟨n, e⟩
    · left; omega
    · right
      obtain ⟨doc, hdoc, _, ht⟩ := (hs _ _).mp e
      refine ⟨doc, hdoc, ?_⟩
      rw [hm, Int.add_sub_cancel]
      exact ht

/-- **C37.** After scanning a corpus into a new model there is a number `m` of rows for integer tags, one more than the
largest integer tag, and: an integer tag `i ≥ 0` of the corpus has row `i`, which is in range; a string tag of the
corpus has a row that is in range, behind the `m` rows of the integer tags; no other string tag has a row; the rows of
different tags of the corpus are different; and `index_to_key` names the tag of each such row. -/
theorem C37_rows (docs : List (Nat × List (Tag κ))) :
    ∃ m : Nat,
      (∀ doc ∈ docs, ∀ i, Tag.int i ∈ doc.2 → i < (m : Int)) ∧
      (m = 0 ∨ ∃ doc ∈ docs, Tag.int ((m : Int) - 1) ∈ doc.2) ∧
      (∀ i : Nat, i < m → rowOf (buildTags docs) (Tag.int i) = some i ∧
        (buildTags docs).indexToKey[i]? = some (Tag.int i)) ∧
      (∀ t, (∃ doc ∈ docs, Tag.str t ∈ doc.2) → ∃ r, rowOf (buildTags docs) (Tag.str t) = some r ∧ m ≤ r ∧
        (buildTags docs).indexToKey[r]? = some (Tag.str t)) ∧
      (∀ t, (¬ ∃ doc ∈ docs, Tag.str t ∈ doc.2) → rowOf (buildTags docs) (Tag.str t) = none) := by
  have h := inv_scan docs
  obtain ⟨s1, s2⟩ := shift_spec docs
  have hocc : ∀ t, 0 < occ (stream docs) t ↔ ∃ doc ∈ docs, Tag.str t ∈ doc.2 := by
    intro t
    unfold occ
    rw [List.countP_pos_iff]
    unfold stream
    constructor
    · rintro ⟨p, hp, e⟩
      obtain ⟨d, hd, hm⟩ := List.mem_flatMap.mp hp
      obtain ⟨x, hx, rfl⟩ := List.mem_map.mp hm
      simp only [decide_eq_true_eq] at e
      exact ⟨d, hd, e ▸ hx⟩
    · rintro ⟨d, hd, ht⟩
      exact ⟨(d.1, Tag.str t), List.mem_flatMap.mpr ⟨d, hd, List.mem_map.mpr ⟨_, ht, rfl⟩⟩, by simp⟩
  have hgs : ∀ t, (buildTags docs).keyToIndex.get? (Tag.str t) = ((scan docs).lookup.get? t).map (fun d =>
      d.index + if (scan docs).maxInt > -1 then ((scan docs).maxInt + 1).toNat else 0) := by
    intro t
    unfold buildTags store
    dsimp only
    rw [get?_foldl_map (fun k => Tag.str k) (by intro a b e; simpa using e) (fun d : Doctag =>
      d.index + if (scan docs).maxInt > -1 then ((scan docs).maxInt + 1).toNat else 0) _ _ h.wf]
    cases (scan docs).lookup.get? t <;> rfl
  have hgi : ∀ i, (buildTags docs).keyToIndex.get? (Tag.int i) = none := by
    intro i
    unfold buildTags store
    dsimp only
    rw [get?_foldl_str_int (fun d : Doctag =>
      d.index + if (scan docs).maxInt > -1 then ((scan docs).maxInt + 1).toNat else 0)]
    rfl
  refine ⟨_, s1, s2, ?_, ?_, ?_⟩
  · intro i hi
    constructor
    · unfold rowOf getIndex
      dsimp only
      rw [hgi]
      simp only [Tag.asInt]
      rw [if_pos]
      · rfl
      · refine ⟨by omega, ?_⟩
        rw [List.length_map]
        unfold buildTags store
        dsimp only
        rw [List.length_append, List.length_map, List.length_range]
        omega
    · unfold buildTags store
      dsimp only
      rw [List.getElem?_append_left (by simpa using hi), List.getElem?_map, List.getElem?_range hi]
      rfl
  · intro t ht
    have htl := (h.mem t).mpr ((hocc t).mpr ht)
    rw [← h.keys] at htl
    obtain ⟨d, hd⟩ := Option.isSome_iff_exists.mp ((get?_isSome_iff _ _).mpr htl)
    obtain ⟨p1, _, _⟩ := h.pos t d hd
    refine ⟨_, ?_, Nat.le_add_left _ d.index, ?_⟩
    · unfold rowOf
      rw [getIndex_eq rfl]
      dsimp only
      rw [hgs, hd]
      rfl
    · unfold buildTags store
      dsimp only
      rw [List.getElem?_append_right (by simp), List.length_map, List.length_range, Nat.add_sub_cancel,
        List.getElem?_map, p1]
      rfl
  · intro t ht
    unfold rowOf
    rw [getIndex_eq rfl]
    dsimp only
    rw [hgs]
    have : (scan docs).lookup.get? t = none := by
      rw [get?_eq_none_iff, h.keys, h.mem, hocc]
      exact ht
    rw [this]
    rfl

/-- **C37.** Negative integer tags have no row. -/
theorem C37_negative (docs : List (Nat × List (Tag κ))) (i : Int) (hi : i < 0) : rowOf (buildTags docs) (Tag.int i) = none := by
  have hg : (buildTags docs).keyToIndex.get? (Tag.int i) = none := by
    unfold buildTags store
    dsimp only
    rw [get?_foldl_str_int (fun d : Doctag =>
      d.index + if (scan docs).maxInt > -1 then ((scan docs).maxInt + 1).toNat else 0)]
    rfl
  unfold rowOf getIndex
  dsimp only
  rw [hg]
  simp only [Tag.asInt]
  rw [if_neg (by omega)]

/-- **C37.** Different tags of the corpus have different rows. -/
theorem C37_injective (docs : List (Nat × List (Tag κ))) (a b : Tag κ) (r : Nat)
    (hca : ∃ doc ∈ docs, a ∈ doc.2) (hcb : ∃ doc ∈ docs, b ∈ doc.2)
    (ha : rowOf (buildTags docs) a = some r) (hb : rowOf (buildTags docs) b = some r) : a = b := by
  obtain ⟨m, h1, _, h3, h4, h5⟩ := C37_rows docs
  have key : ∀ t, (∃ doc ∈ docs, t ∈ doc.2) → rowOf (buildTags docs) t = some r →
      (buildTags docs).indexToKey[r]? = some t := by
    intro t hc ht
    cases t with
    | str k =>
      obtain ⟨r', e1, _, e3⟩ := h4 k hc
      rw [ht] at e1
      obtain rfl := Option.some.inj e1
      exact e3
    | int i =>
      obtain ⟨doc, hdoc, hi⟩ := hc
      have hlt := h1 doc hdoc i hi
      by_cases hneg : i < 0
      · rw [C37_negative docs i hneg] at ht; simp at ht
      · obtain ⟨n, rfl⟩ : ∃ n : Nat, i = n := ⟨i.toNat, by omega⟩
        obtain ⟨e1, e2⟩ := h3 n (by omega)
        rw [ht] at e1
        obtain rfl := Option.some.inj e1
        exact e2
  have e1 := key a hca ha
  have e2 := key b hcb hb
  rw [e1] at e2
  exact Option.some.inj e2

/-- **C37.** `doc_count` of a string tag is its number of occurrences in the corpus, `word_count` the number of words of
the documents it occurs in (once per occurrence). -/
theorem C37_counts (docs : List (Nat × List (Tag κ))) (t : κ) (ht : ∃ doc ∈ docs, Tag.str t ∈ doc.2) :
    (buildTags docs).docCount.get? t = some (occurrences docs t) ∧
    (buildTags docs).wordCount.get? t = some (words docs t) := by
  have h := inv_scan docs
  have htl : t ∈ (scan docs).list := by
    rw [h.mem]
    unfold occ
    rw [List.countP_pos_iff]
    obtain ⟨d, hd, ht⟩ := ht
    exact ⟨(d.1, Tag.str t), List.mem_flatMap.mpr ⟨d, hd, List.mem_map.mpr ⟨_, ht, rfl⟩⟩, by simp⟩
  rw [← h.keys] at htl
  obtain ⟨d, hd⟩ := Option.isSome_iff_exists.mp ((get?_isSome_iff _ _).mpr htl)
  obtain ⟨_, p2, p3⟩ := h.pos t d hd
  rw [← occ_stream, ← wds_stream, ← p2, ← p3]
  unfold buildTags store
  dsimp only
  constructor
  · have := get?_foldl_map (fun k : κ => k) (by intro a b e; exact e) (fun d : Doctag => d.docCount)
      (scan docs).lookup [] h.wf t
    rw [hd] at this
    exact this
  · have := get?_foldl_map (fun k : κ => k) (by intro a b e; exact e) (fun d : Doctag => d.wordCount)
      (scan docs).lookup [] h.wf t
    rw [hd] at this
    exact this

/-- building the vocabulary again on the same model: the tag `old`, which is not in the new corpus, still has a row, that
of another tag -/
theorem C37_rebuild :
    let first := buildTags [(3, [Tag.str "old"])]
    let second := store first (scan [(2, [Tag.str "new"])])
    rowOf second (Tag.str "old") = some 0 ∧ rowOf second (Tag.str "new") = some 0 ∧
      second.indexToKey = [Tag.str "new"] := by decide +kernel

/-- an integer that is no tag of the corpus addresses the row of a string tag -/
theorem C37_foreign_integer :
    rowOf (buildTags [(3, [Tag.int 1, Tag.str "x"])]) (Tag.int 2) = some 2 ∧
    rowOf (buildTags [(3, [Tag.int 1, Tag.str "x"])]) (Tag.str "x") = some 2 := by decide +kernel

/-- two documents with integer and string tags, one tag twice -/
example : buildTags [(3, [Tag.int 1, Tag.str "x", Tag.str "x"]), (2, [Tag.str "y", Tag.str "x"])] =
    ⟨[Tag.int 0, Tag.int 1, Tag.str "x", Tag.str "y"], [(Tag.str "x", 2), (Tag.str "y", 3)], [("x", 8), ("y", 2)],
      [("x", 3), ("y", 1)]⟩ := by decide +kernel

end Verif.Doc2Vec
