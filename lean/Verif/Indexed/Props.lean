import Mathlib.Tactic.Linarith
import Mathlib.Tactic.SplitIfs
import Verif.Indexed.Model

/-!
# C107: indexed corpora give back what was serialised, as long as data and index belong together
-/

namespace Verif.Indexed

/-! ### The name of the index file -/

theorem splitRev_spec (l : List Char) : ∀ acc r e, splitRev l acc = some (r, e) → l.reverse ++ acc = r.reverse ++ e := by
  induction l with
  | nil => intro acc r e h; cases h
  | cons c l ih =>
    intro acc r e h
    unfold splitRev at h
    split_ifs at h with h1 h2 h3
    · cases h; subst h2; simp
    · have := ih _ _ _ h
      simpa using this

theorem splitext_append (p : List Char) : (splitext p).1 ++ (splitext p).2 = p := by
  unfold splitext
  cases h : splitRev p.reverse [] with
  | none => simp
  | some re =>
    obtain ⟨r, e⟩ := re
    have := splitRev_spec _ _ _ _ h
    simpa using this.symm

/-- The index of `name.gz` is `name` with the extension put before `.gz`, likewise for `.bz2`; for every other name it is put at
the end. -/
theorem C107_index_name (ext p : List Char) :
    ((splitext p).2 = ".gz".toList → ∃ r, p = r ++ ".gz".toList ∧ smartExtension ext p = r ++ ext ++ ".gz".toList) ∧
      ((splitext p).2 = ".bz2".toList → ∃ r, p = r ++ ".bz2".toList ∧ smartExtension ext p = r ++ ext ++ ".bz2".toList) ∧
      ((splitext p).2 ≠ ".gz".toList → (splitext p).2 ≠ ".bz2".toList → smartExtension ext p = p ++ ext) := by
  have ha := splitext_append p
  refine ⟨fun h => ⟨(splitext p).1, by rw [← h, ha], ?_⟩, fun h => ⟨(splitext p).1, by rw [← h, ha], ?_⟩, fun h1 h2 => ?_⟩
  · unfold smartExtension
    simp only [h]
    rw [if_neg (by decide), if_pos trivial]
  · unfold smartExtension
    simp only [h]
    rw [if_pos trivial]
  · unfold smartExtension
    simp only
    rw [if_neg h2, if_neg h1]

/-- Two files never share an index file, and the index of a file is never the file itself. -/
theorem C107_index_names_differ (p q : List Char) :
    (smartExtension ".index".toList p = smartExtension ".index".toList q → p = q) ∧ smartExtension ".index".toList p ≠ p := by
  have hl : ∀ s : List Char, (splitext s).2 = ".bz2".toList ∧ s = (splitext s).1 ++ ".bz2".toList ∧
        smartExtension ".index".toList s = (splitext s).1 ++ ".index".toList ++ ".bz2".toList ∨
      (splitext s).2 = ".gz".toList ∧ s = (splitext s).1 ++ ".gz".toList ∧
        smartExtension ".index".toList s = (splitext s).1 ++ ".index".toList ++ ".gz".toList ∨
      smartExtension ".index".toList s = s ++ ".index".toList := by
    intro s
    have ha := splitext_append s
    unfold smartExtension
    simp only
    split_ifs with h1 h2
    · left; exact ⟨h1, by rw [← h1, ha], rfl⟩
    · right; left; exact ⟨h2, by rw [← h2, ha], rfl⟩
    · right; right; rfl
  have last : ∀ (a b : List Char) (c d : Char), a ++ [c] = b ++ [d] → c = d := by
    intro a b c d h
    have := congrArg List.getLast? h
    simpa using this
  have l1 : ∀ s : List Char, s ++ ".bz2".toList = (s ++ ".bz".toList) ++ ['2'] := by intro s; simp
  have l2 : ∀ s : List Char, s ++ ".gz".toList = (s ++ ".g".toList) ++ ['z'] := by intro s; simp
  have l3 : ∀ s : List Char, s ++ ".index".toList = (s ++ ".inde".toList) ++ ['x'] := by intro s; simp
  constructor
  · intro h
    rcases hl p with ⟨-, p1, p2⟩ | ⟨-, p1, p2⟩ | p2 <;> rcases hl q with ⟨-, q1, q2⟩ | ⟨-, q1, q2⟩ | q2 <;> rw [p2, q2] at h
    · have := List.append_cancel_right (List.append_cancel_right h)
      rw [p1, q1, this]
    · rw [l1, l2] at h; exact absurd (last _ _ _ _ h) (by decide)
    · rw [l1, l3 q] at h; exact absurd (last _ _ _ _ h) (by decide)
    · rw [l1, l2] at h; exact absurd (last _ _ _ _ h) (by decide)
    · have := List.append_cancel_right (List.append_cancel_right h)
      rw [p1, q1, this]
    · rw [l2, l3 q] at h; exact absurd (last _ _ _ _ h) (by decide)
    · rw [l1, l3 p] at h; exact absurd (last _ _ _ _ h) (by decide)
    · rw [l2, l3 p] at h; exact absurd (last _ _ _ _ h) (by decide)
    · exact List.append_cancel_right h
  · intro h
    have hlen : (smartExtension ".index".toList p).length = p.length := by rw [h]
    rcases hl p with ⟨-, p1, p2⟩ | ⟨-, p1, p2⟩ | p2
    · have := congrArg List.length p1
      rw [p2] at hlen
      simp at hlen this
      omega
    · have := congrArg List.length p1
      rw [p2] at hlen
      simp at hlen this
      omega
    · rw [p2] at hlen
      simp at hlen

example : smartExtension ".index".toList "dir.gz/corpus.mm.bz2".toList = "dir.gz/corpus.mm.index.bz2".toList ∧
    smartExtension ".index".toList "dir.gz/corpus".toList = "dir.gz/corpus.index".toList := by decide

variable {D C N P : Type} [DecidableEq N] [DecidableEq P]

/-! ### Specification -/

/-- A file format that works: what was written is read back, as a whole and at each offset. -/
structure Format.Good (fmt : Format D C) : Prop where
  read_write : ∀ docs, fmt.read (fmt.write docs).1 = docs
  offsets : ∀ docs, (fmt.write docs).2.length = docs.length
  docAt : ∀ docs (i : Nat) (h : i < docs.length) (h' : i < (fmt.write docs).2.length),
    fmt.docAt (fmt.write docs).1 ((fmt.write docs).2[i]) = .ok docs[i]
  read_empty : fmt.read fmt.empty = []

/-- The opened corpus holds exactly the documents, by iteration and by number. -/
structure Holds (fmt : Format D C) (w : World N P) (fs : FS P C) (c : Corpus N) (docs : List D) : Prop where
  iter : iterate fmt w fs c = .ok docs
  length : (len fmt w fs c).2 = .ok docs.length
  item : ∀ (i : Nat) (h : i < docs.length), getItem fmt w fs c (.int i) = .ok (.doc docs[i]) ∧
    getItem fmt w fs c (.int ((i : Int) - docs.length)) = .ok (.doc docs[i])
  outside : ∀ i : Int, (docs.length : Int) ≤ i ∨ i < -docs.length → getItem fmt w fs c (.int i) = .error .index
  other : getItem fmt w fs c .other = .error .value
  fancy : docs ≠ [] → ∀ is : List Nat, (∀ i ∈ is, i < docs.length) →
    getItem fmt w fs c (.list (is.map fun i : Nat => (i : Int))) = .ok (.view (is.map fun i : Nat => (i : Int))) ∧
    iterView fmt w fs c (is.map fun i : Nat => (i : Int)) = .ok (is.filterMap (docs[·]?))

/-! ### Data and index that belong together -/

theorem pyIndex_nonneg {α : Type} (l : List α) (i : Nat) (h : i < l.length) : pyIndex l (i : Int) = .ok l[i] := by
  unfold pyIndex
  have h0 : ¬ (i : Int) < 0 := by omega
  simp only [h0, if_false]
  simp [h]

theorem pyIndex_neg {α : Type} (l : List α) (i : Nat) (h : i < l.length) : pyIndex l ((i : Int) - l.length) = .ok l[i] := by
  unfold pyIndex
  have h0 : (i : Int) - l.length < 0 := by omega
  have : (i : Int) - l.length + l.length = i := by omega
  simp only [h0, if_true, this]
  rw [if_neg (by omega)]
  simp [h]

theorem pyIndex_out {α : Type} (l : List α) (i : Int) (h : (l.length : Int) ≤ i ∨ i < -l.length) : pyIndex l i = .error .index := by
  unfold pyIndex
  simp only
  rcases h with h | h
  · have h0 : ¬ i < 0 := by omega
    have : l[i.toNat]? = none := by rw [List.getElem?_eq_none_iff]; omega
    simp only [h0, if_false, this]
  · have h0 : i < 0 := by omega
    have h1 : i + l.length < 0 := by omega
    simp only [h0, if_true, h1]

theorem collect_ok {α β : Type} (f : α → Except Err β) (g : α → β) (l : List α) (h : ∀ x ∈ l, f x = .ok (g x)) :
    collect f l = .ok (l.map g) := by
  induction l with
  | nil => rfl
  | cons x l ih =>
    unfold collect
    rw [h x List.mem_cons_self, ih fun y hy => h y (List.mem_cons_of_mem _ hy)]
    rfl

theorem holds_of {fmt : Format D C} (hg : fmt.Good) {w : World N P} {fs : FS P C} {c : Corpus N} {docs : List D}
    (hd : fs (w.resolve c.fname) = some (.data (fmt.write docs).1)) (hi : c.index = some (fmt.write docs).2) :
    Holds fmt w fs c docs := by
  have hlen := hg.offsets docs
  refine ⟨?_, ?_, fun i h => ⟨?_, ?_⟩, fun i h => ?_, ?_, fun hne is his => ⟨?_, ?_⟩⟩
  · unfold iterate readFile
    simp only [hd, hg.read_write]
  · unfold len
    simp only [hi, hlen]
  · unfold getItem
    simp only [hi, pyIndex_nonneg _ i (hlen ▸ h)]
    unfold docByOffset
    simp only [hd, hg.docAt docs i h (hlen ▸ h)]
    rfl
  · unfold getItem
    rw [← hlen]
    simp only [hi, pyIndex_neg _ i (hlen ▸ h)]
    unfold docByOffset
    simp only [hd, hg.docAt docs i h (hlen ▸ h)]
    rfl
  · unfold getItem
    simp only [hi, pyIndex_out _ i (hlen ▸ h)]
  · unfold getItem
    simp only [hi]
  · unfold getItem
    simp only [hi]
  · unfold iterView
    have hpos : 0 < (fmt.write docs).2.length := by rw [hlen]; exact List.length_pos_iff.2 hne
    simp only [hi]
    rw [if_pos hpos]
    have e1 : collect (pyIndex (fmt.write docs).2) (is.map fun i : Nat => (i : Int)) =
        .ok (is.map fun i => (fmt.write docs).2.getD i 0) := by
      rw [collect_ok _ (fun x : Int => (fmt.write docs).2.getD x.toNat 0)]
      · rw [List.map_map]; rfl
      · intro x hx
        obtain ⟨i, hi', rfl⟩ := List.mem_map.1 hx
        rw [pyIndex_nonneg _ i (hlen ▸ his i hi')]
        simp [List.getD, List.getElem?_eq_getElem (hlen ▸ his i hi')]
    simp only [e1]
    clear e1
    induction is with
    | nil => rfl
    | cons i is ih =>
      have h := his i List.mem_cons_self
      rw [List.map_cons]
      unfold collect
      have : (fmt.write docs).2.getD i 0 = (fmt.write docs).2[i]'(hlen ▸ h) := by
        simp [List.getD, List.getElem?_eq_getElem (hlen ▸ h)]
      rw [this]
      have hdo : docByOffset fmt w fs c ((fmt.write docs).2[i]'(hlen ▸ h)) = .ok docs[i] := by
        unfold docByOffset
        simp only [hd, hg.docAt docs i h (hlen ▸ h)]
      rw [hdo, ih fun j hj => his j (List.mem_cons_of_mem _ hj)]
      simp [List.getElem?_eq_getElem h]

/-- A corpus serialised and opened holds exactly the documents, in order. -/
theorem C107_serialize {fmt : Format D C} (hg : fmt.Good) {w : World N P} (fs : FS P C) (fname : N)
    (hn : w.resolve (w.indexName fname) ≠ w.resolve fname) (docs : List D) :
    (serialize fmt w fs fname (.mem docs) .never).2 = .ok () ∧
      Holds fmt w (serialize fmt w fs fname (.mem docs) .never).1
        (openCorpus w (serialize fmt w fs fname (.mem docs) .never).1 fname) docs := by
  refine ⟨by simp [serialize, sameName, saveCorpus, readSource], holds_of hg ?_ ?_⟩
  · simp [serialize, sameName, saveCorpus, readSource, openCorpus, put, Ne.symm hn]
  · simp [serialize, sameName, saveCorpus, readSource, openCorpus, put]

/-! ### Histories -/

/-- Names for data files: different names are different files, and so are their indexes. -/
structure World.Separate (w : World N P) (names : N → Prop) : Prop where
  data : ∀ a b, names a → names b → w.resolve a = w.resolve b → a = b
  index : ∀ a b, names a → names b → w.resolve (w.indexName a) = w.resolve (w.indexName b) → a = b
  apart : ∀ a b, names a → names b → w.resolve (w.indexName a) ≠ w.resolve b

/-- Whenever there is an index, it belongs to the data. -/
def Consistent (fmt : Format D C) (w : World N P) (names : N → Prop) (fs : FS P C) : Prop :=
  ∀ n, names n → ∀ o, fs (w.resolve (w.indexName n)) = some (.index o) →
    ∃ docs, fs (w.resolve n) = some (.data (fmt.write docs).1) ∧ o = (fmt.write docs).2

/-- A list of calls of `serialize`, all of which end without an error other than a refusal. -/
inductive Calls (fmt : Format D C) (w : World N P) (names : N → Prop) : FS P C → FS P C → Prop
  | nil (fs) : Calls fmt w names fs fs
  | call {fs mid fs' : FS P C} {fname : N} {src : Source N D} {res : Except Err Unit} : names fname → 
      serialize fmt w fs fname src .never = (mid, res) → (res = .ok () ∨ res = .error .value) →
      Calls fmt w names mid fs' → Calls fmt w names fs fs'

theorem serialize_cases {fmt : Format D C} {w : World N P} {fs mid : FS P C} {fname : N} {src : Source N D} {res : Except Err Unit}
    (h : serialize fmt w fs fname src .never = (mid, res)) (hr : res = .ok () ∨ res = .error .value) :
    mid = fs ∨ ∃ docs, mid = put (put (put fs (w.resolve fname) (.data fmt.empty)) (w.resolve fname) (.data (fmt.write docs).1))
      (w.resolve (w.indexName fname)) (.index (fmt.write docs).2) := by
  unfold serialize at h
  by_cases hs : sameName fname src = true
  · rw [if_pos hs] at h
    left
    exact (congrArg Prod.fst h).symm
  · rw [if_neg hs, if_neg (by decide)] at h
    right
    unfold saveCorpus at h
    simp only at h
    cases hr2 : readSource fmt w (put fs (w.resolve fname) (.data fmt.empty)) src with
    | error e =>
      rw [hr2] at h
      simp only [Prod.mk.injEq] at h
      rcases hr with hr | hr
      · rw [← h.2] at hr; cases hr
      · exfalso
        rw [← h.2] at hr
        cases src with
        | mem docs => simp [readSource] at hr2
        | file n =>
          simp only [readSource, readFile] at hr2
          split at hr2 <;> cases hr2
          cases hr
        | view n f =>
          simp only [readSource, readFile] at hr2
          split at hr2 <;> cases hr2
          cases hr
    | ok docs =>
      rw [hr2] at h
      simp only at h
      rw [if_neg (by decide)] at h
      exact ⟨docs, (congrArg Prod.fst h).symm⟩

theorem consistent_serialize {fmt : Format D C} {w : World N P} {names : N → Prop} (hw : w.Separate names) {fs mid : FS P C}
    {fname : N} (hf : names fname) {src : Source N D} {res : Except Err Unit} (h : serialize fmt w fs fname src .never = (mid, res))
    (hr : res = .ok () ∨ res = .error .value) (hc : Consistent fmt w names fs) : Consistent fmt w names mid := by
  rcases serialize_cases h hr with rfl | ⟨docs, rfl⟩
  · exact hc
  · intro n hn o ho
    by_cases he : n = fname
    · subst he
      refine ⟨docs, ?_, ?_⟩
      · unfold put
        rw [if_neg (Ne.symm (hw.apart n n hn hn)), if_pos rfl]
      · unfold put at ho
        rw [if_pos rfl] at ho
        cases ho
        rfl
    · have h1 : w.resolve (w.indexName n) ≠ w.resolve (w.indexName fname) := fun hh => he (hw.index _ _ hn hf hh)
      have h2 : w.resolve (w.indexName n) ≠ w.resolve fname := hw.apart _ _ hn hf
      have h3 : w.resolve n ≠ w.resolve (w.indexName fname) := Ne.symm (hw.apart _ _ hf hn)
      have h4 : w.resolve n ≠ w.resolve fname := fun hh => he (hw.data _ _ hn hf hh)
      unfold put at ho
      rw [if_neg h1, if_neg h2, if_neg h2] at ho
      obtain ⟨d, e1, e2⟩ := hc n hn o ho
      refine ⟨d, ?_, e2⟩
      unfold put
      rw [if_neg h3, if_neg h4, if_neg h4]
      exact e1

/-- After any sequence of completed calls of `serialize`, from memory, from other corpora or from views, on any files, every
corpus that opens with an index holds what its file holds. -/
theorem C107_history {fmt : Format D C} (hg : fmt.Good) {w : World N P} {names : N → Prop} (hw : w.Separate names) {fs fs' : FS P C}
    (h : Calls fmt w names fs fs') (hc : Consistent fmt w names fs) (n : N) (hn : names n)
    (hi : (openCorpus w fs' n).index ≠ none) :
    ∃ docs, Holds fmt w fs' (openCorpus w fs' n) docs ∧ iterate fmt w fs' (openCorpus w fs' n) = .ok docs := by
  induction h with
  | nil fs =>
    unfold openCorpus at hi
    simp only at hi
    cases hf : fs (w.resolve (w.indexName n)) with
    | none => rw [hf] at hi; exact absurd rfl hi
    | some f =>
      cases f with
      | data c => rw [hf] at hi; exact absurd rfl hi
      | other => rw [hf] at hi; exact absurd rfl hi
      | index o =>
        obtain ⟨docs, e1, e2⟩ := hc n hn o hf
        have hh : Holds fmt w fs (openCorpus w fs n) docs := holds_of hg e1 (by unfold openCorpus; simp [hf, e2])
        exact ⟨docs, hh, hh.iter⟩
  | call hf hs hr _ ih => exact ih (consistent_serialize hw hf hs hr hc) hi

/-! ### What goes wrong -/

/-- A corpus object is not serialised to the file it was opened with: nothing is touched. -/
theorem C107_same_name (fmt : Format D C) (w : World N P) (fs : FS P C) (fname : N) (stop : Stop) :
    serialize fmt w fs fname (.file fname) stop = (fs, .error .value) := by
  simp [serialize, sameName]

/-- Finding: only equal names are refused. A view of the corpus in the file, or the same file under another name, is emptied
before it is read: the result is an empty corpus and the documents are lost (for views that map no documents to none). -/
theorem C107_overwrites_itself {fmt : Format D C} (hg : fmt.Good) {w : World N P} {fs : FS P C} {fname : N}
    (hn : w.resolve (w.indexName fname) ≠ w.resolve fname) {src : Source N D}
    (hs : (∃ f, f [] = [] ∧ src = .view fname f) ∨ ∃ other, other ≠ fname ∧ w.resolve other = w.resolve fname ∧ src = .file other) :
    ∃ fs', serialize fmt w fs fname src .never = (fs', .ok ()) ∧ Holds fmt w fs' (openCorpus w fs' fname) [] := by
  have hread : readSource fmt w (put fs (w.resolve fname) (.data fmt.empty)) src = .ok [] := by
    rcases hs with ⟨f, hf, rfl⟩ | ⟨other, -, hr, rfl⟩
    · simp [readSource, readFile, put, hg.read_empty, Except.map, hf]
    · simp [readSource, readFile, put, hr, hg.read_empty]
  have hguard : sameName fname src = false := by
    rcases hs with ⟨f, hf, rfl⟩ | ⟨other, ho, -, rfl⟩
    · rfl
    · simp [sameName, ho]
  refine ⟨_, by
    unfold serialize
    rw [if_neg (by simp [hguard]), if_neg (by decide)]
    unfold saveCorpus
    simp only [hread]
    rw [if_neg (by decide)], ?_⟩
  refine holds_of hg ?_ ?_
  · simp [openCorpus, put, Ne.symm hn]
  · simp [openCorpus, put]

/-- Finding: a process that stops after the data were written, or a call of `save_corpus`, leaves the old index beside the new
data. The corpus opened then has the old length and the old offsets, although iteration gives the new documents. -/
theorem C107_stale_index {fmt : Format D C} (hg : fmt.Good) {w : World N P} {fs : FS P C} {fname : N}
    (hn : w.resolve (w.indexName fname) ≠ w.resolve fname) {old new : List D}
    (hi : fs (w.resolve (w.indexName fname)) = some (.index (fmt.write old).2)) :
    (serialize fmt w fs fname (.mem new) .afterData).1 = (saveCorpus fmt w fs fname (.mem new)).1 ∧
      let fs' := (saveCorpus fmt w fs fname (.mem new)).1
      let c := openCorpus w fs' fname
      iterate fmt w fs' c = .ok new ∧ (len fmt w fs' c).2 = .ok old.length ∧
        ∀ (i : Nat) (h : i < (fmt.write old).2.length),
          getItem fmt w fs' c (.int i) = (fmt.docAt (fmt.write new).1 ((fmt.write old).2[i])).map .doc := by
  have hidx : (openCorpus w (saveCorpus fmt w fs fname (.mem new)).1 fname).index = some (fmt.write old).2 := by
    simp [openCorpus, saveCorpus, readSource, put, hn, hi]
  have hdat : (saveCorpus fmt w fs fname (.mem new)).1 (w.resolve fname) = some (.data (fmt.write new).1) := by
    simp [saveCorpus, readSource, put]
  refine ⟨by simp [serialize, sameName, saveCorpus, readSource], ?_, ?_, fun i h => ?_⟩
  · unfold iterate readFile
    rw [show (openCorpus w (saveCorpus fmt w fs fname (.mem new)).1 fname).fname = fname from rfl, hdat]
    simp only [hg.read_write]
  · unfold len
    simp only [hidx, hg.offsets]
  · unfold getItem
    simp only [hidx, pyIndex_nonneg _ i h]
    unfold docByOffset
    rw [show (openCorpus w (saveCorpus fmt w fs fname (.mem new)).1 fname).fname = fname from rfl, hdat]

/-- Finding: a source that cannot be read leaves an emptied file with the old index. -/
theorem C107_failed_source {fmt : Format D C} (hg : fmt.Good) {w : World N P} {fs : FS P C} {fname missing : N}
    (hn : w.resolve (w.indexName fname) ≠ w.resolve fname) (hm : w.resolve missing ≠ w.resolve fname) (hne : missing ≠ fname)
    (hmiss : fs (w.resolve missing) = none) {old : List D}
    (hi : fs (w.resolve (w.indexName fname)) = some (.index (fmt.write old).2)) :
    ∃ fs', serialize fmt w fs fname (.file missing) .never = (fs', .error .io) ∧
      iterate fmt w fs' (openCorpus w fs' fname) = .ok [] ∧ (len fmt w fs' (openCorpus w fs' fname)).2 = .ok old.length := by
  refine ⟨put fs (w.resolve fname) (.data fmt.empty), ?_, ?_, ?_⟩
  · simp [serialize, sameName, saveCorpus, readSource, readFile, put, hm, hmiss, hne]
  · simp [iterate, readFile, openCorpus, put, hg.read_empty]
  · simp [len, openCorpus, put, hn, hi, hg.offsets]

/-- Finding: a corpus whose name is the name of the index of another one is overwritten when that one is serialised. -/
theorem C107_name_of_index {fmt : Format D C} {w : World N P} {fs : FS P C} {a b : N} (hab : w.resolve (w.indexName a) = w.resolve b)
    (docs : List D) :
    iterate fmt w (serialize fmt w fs a (.mem docs) .never).1 (openCorpus w (serialize fmt w fs a (.mem docs) .never).1 b) =
      .error .io := by
  simp [serialize, sameName, saveCorpus, readSource, iterate, readFile, openCorpus, put, hab]

/-! ### Without an index -/

/-- Without a usable index file, no document can be asked for by number; the length is found by iterating once and then kept, even
if the file changes afterwards (finding). -/
theorem C107_no_index {fmt : Format D C} {w : World N P} {fs : FS P C} {fname : N}
    (hno : ∀ o, fs (w.resolve (w.indexName fname)) ≠ some (.index o)) :
    let c := openCorpus w fs fname
    (∀ k, getItem fmt w fs c k = .error .runtime) ∧
      ∀ docs, iterate fmt w fs c = .ok docs →
        (len fmt w fs c).2 = .ok docs.length ∧
        ∀ later : FS P C, (len fmt w later (len fmt w fs c).1).2 = .ok docs.length := by
  intro c
  have hc : c.index = none := by
    show (openCorpus w fs fname).index = none
    unfold openCorpus
    simp only
  have hl : c.length = none := rfl
  refine ⟨fun k => by unfold getItem; simp only [hc], fun docs hd => ?_⟩
  have h1 : len fmt w fs c = ({ c with length := some docs.length }, .ok docs.length) := by
    unfold len
    simp only [hc, hl, hd]
  refine ⟨by rw [h1], fun later => ?_⟩
  rw [h1]
  unfold len
  simp only [hc]

/-- Finding: asking an empty corpus for a list of documents, even an empty one, is an AttributeError once it is iterated. -/
theorem C107_empty_fancy {fmt : Format D C} {w : World N P} {fs : FS P C} {c : Corpus N} (h : c.index = some []) (is : List Int) :
    getItem fmt w fs c (.list is) = .ok (.view is) ∧ iterView fmt w fs c is = .error .attribute := by
  constructor
  · unfold getItem; simp only [h]
  · unfold iterView; simp [h]

/-- Finding: `CsvCorpus` cannot be constructed, whatever the file holds. -/
theorem C107_csv (lines : List (List UInt8)) : ∃ e, csvInit lines = .error e := by
  unfold csvInit
  cases lines.take 5 with
  | nil => exact ⟨_, rfl⟩
  | cons x l => exact ⟨_, rfl⟩

/-! ### Instances -/

/-- A format: the file is the list of documents, the offset of a document its position. -/
def exFormat : Format Nat (List Nat) where
  empty := []
  write := fun d => (d, (List.range d.length).map fun i : Nat => (i : Int))
  read := id
  docAt := fun c o => pyIndex c o

theorem exFormat_good : exFormat.Good where
  read_write := fun _ => rfl
  offsets := fun d => by simp [exFormat]
  docAt := fun d i h h' => by
    simp only [exFormat, List.getElem_map, List.getElem_range]
    exact pyIndex_nonneg d i h
  read_empty := rfl

/-- Names and paths are numbers; the index of `n` is `n + 100`. -/
def exWorld : World Nat Nat := ⟨id, (· + 100)⟩

theorem exWorld_separate : exWorld.Separate (· < 100) where
  data := fun _ _ _ _ h => h
  index := fun _ _ _ _ h => by simp only [exWorld, id] at h; omega
  apart := fun _ _ _ _ => by simp only [exWorld, id]; omega

example : Consistent exFormat exWorld (· < 100) (fun _ => none) := fun _ _ _ h => by cases h

theorem nonDotBefore_dots (s : List Char) (hs : ∀ c ∈ s, c = '.') (r : List Char) :
    nonDotBefore (s ++ r) = nonDotBefore r := by
  induction s with
  | nil => rfl
  | cons c s ih =>
    rw [hs c List.mem_cons_self, List.cons_append, nonDotBefore, if_neg (by decide), if_pos rfl]
    exact ih fun x hx => hs x (List.mem_cons_of_mem _ hx)

theorem nonDotBefore_dir (dir : List Char) (hd : dir = [] ∨ ∃ d, dir = d ++ ['/']) : nonDotBefore dir.reverse = false := by
  rcases hd with rfl | ⟨d, rfl⟩
  · rfl
  · rw [List.reverse_append]; rfl

theorem nonDotBefore_iff (s : List Char) (hs : '/' ∉ s) (dir : List Char) (hd : dir = [] ∨ ∃ d, dir = d ++ ['/']) :
    nonDotBefore (s ++ dir.reverse) = true ↔ ∃ c ∈ s, c ≠ '.' := by
  induction s with
  | nil => simp [nonDotBefore_dir dir hd]
  | cons c s ih =>
    rw [List.mem_cons, not_or] at hs
    rw [List.cons_append, nonDotBefore, if_neg (Ne.symm hs.1)]
    by_cases h : c = '.'
    · rw [if_pos h, ih hs.2]; simp [h]
    · rw [if_neg h]; simp [h]

theorem splitRev_ext (e : List Char) (he : ∀ c ∈ e, c ≠ '.' ∧ c ≠ '/') (r acc : List Char) :
    splitRev (e ++ r) acc = splitRev r (e.reverse ++ acc) := by
  induction e generalizing acc with
  | nil => rfl
  | cons c e ih =>
    obtain ⟨h1, h2⟩ := he c List.mem_cons_self
    rw [List.cons_append, splitRev, if_neg h2, if_neg h1, ih fun x hx => he x (List.mem_cons_of_mem _ hx)]
    simp

/-- The extension of a path is what follows the last dot of its last component, unless only dots stand before it there: hidden files
and paths without a dot have none. -/
theorem C107_extension (dir stem ext : List Char) (hd : dir = [] ∨ ∃ d, dir = d ++ ['/']) (hs : '/' ∉ stem)
    (he : ∀ c ∈ ext, c ≠ '.' ∧ c ≠ '/') :
    splitext (dir ++ ext) = (dir ++ ext, []) ∧
    ((∃ c ∈ stem, c ≠ '.') → splitext (dir ++ stem ++ '.' :: ext) = (dir ++ stem, '.' :: ext)) ∧
    ((∀ c ∈ stem, c = '.') → splitext (dir ++ stem ++ '.' :: ext) = (dir ++ stem ++ '.' :: ext, [])) := by
  have hrev : ∀ c ∈ ext.reverse, c ≠ '.' ∧ c ≠ '/' := fun c hc => he c (List.mem_reverse.1 hc)
  refine ⟨?_, fun h => ?_, fun h => ?_⟩
  · unfold splitext
    rw [List.reverse_append, splitRev_ext _ hrev]
    rcases hd with rfl | ⟨d, rfl⟩
    · rfl
    · rw [List.reverse_append]; simp [splitRev]
  all_goals
    unfold splitext
    rw [List.reverse_append, List.reverse_cons, List.append_assoc, splitRev_ext _ hrev, List.reverse_append,
      List.singleton_append, splitRev, if_neg (by decide), if_pos rfl]
    have hiff := nonDotBefore_iff stem.reverse (by simpa using hs) dir hd
  · rw [if_pos (hiff.2 (by simpa using h))]
    simp
  · rw [if_neg (fun e => by
      obtain ⟨c, hc, hne⟩ := hiff.1 e
      exact hne (h c (List.mem_reverse.1 hc)))]

end Verif.Indexed
