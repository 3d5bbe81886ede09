import Mathlib.Tactic
import Mathlib.Data.List.GetD
import Verif.AuthorTopic.Model

/-!
# Properties of the author-topic model (C93)
-/

namespace Verif.AuthorTopic

open Verif

variable {A : Type} [LinearOrder A]

/-! ### Lists and tables -/

theorem keys_map_pair {κ ν : Type} (l : List κ) (f : κ → ν) :
    PyDict.keys (l.map fun k => (k, f k)) = l := by
  simp [PyDict.keys, Function.comp_def]

theorem get?_map_pair {κ ν : Type} [DecidableEq κ] (l : List κ) (f : κ → ν) (k : κ) :
    PyDict.get? (l.map fun k => (k, f k)) k = if k ∈ l then some (f k) else none := by
  induction l with
  | nil => simp
  | cons x xs ih =>
    simp only [List.map_cons, PyDict.get?_cons, ih, List.mem_cons]
    by_cases h : x = k
    · subst h; simp
    · have : ¬ k = x := fun e => h e.symm
      simp [h, this]

theorem erase_of_not_mem {κ ν : Type} [DecidableEq κ] {d : PyDict κ ν} {k : κ}
    (h : k ∉ PyDict.keys d) : PyDict.erase d k = d := by
  induction d with
  | nil => rfl
  | cons p d ih =>
    obtain ⟨k', v⟩ := p
    simp only [PyDict.keys_cons, List.mem_cons, not_or] at h
    have : ¬ k' = k := fun e => h.1 e.symm
    simp [PyDict.erase, this, ih h.2]

theorem erase_set {κ ν : Type} [DecidableEq κ] {d : PyDict κ ν} {k : κ} (v : ν)
    (h : k ∉ PyDict.keys d) : PyDict.erase (PyDict.set d k v) k = d := by
  induction d with
  | nil => simp [PyDict.set, PyDict.erase]
  | cons p d ih =>
    obtain ⟨k', v'⟩ := p
    simp only [PyDict.keys_cons, List.mem_cons, not_or] at h
    have : ¬ k' = k := fun e => h.1 e.symm
    simp [PyDict.set, PyDict.erase, this, ih h.2]

theorem get?_foldl_set {κ ν : Type} [DecidableEq κ] (l : PyDict κ ν) :
    ∀ (t : PyDict κ ν), PyDict.WF l → ∀ k,
      PyDict.get? (l.foldl (fun t p => PyDict.set t p.1 p.2) t) k
        = (PyDict.get? l k).or (PyDict.get? t k) := by
  induction l with
  | nil => intro t _ k; simp
  | cons p l ih =>
    intro t hw k
    obtain ⟨k', v⟩ := p
    have hw' : k' ∉ PyDict.keys l ∧ PyDict.WF l := by
      simpa [PyDict.WF, List.nodup_cons] using hw
    simp only [List.foldl_cons]
    rw [ih _ hw'.2, PyDict.get?_cons, PyDict.get?_set]
    by_cases h : k' = k
    · subst h
      simp [(PyDict.get?_eq_none_iff l k').2 hw'.1]
    · simp [h]

theorem WF_foldl_set {κ ν : Type} [DecidableEq κ] (l : PyDict κ ν) :
    ∀ t : PyDict κ ν, PyDict.WF t →
      PyDict.WF (l.foldl (fun t p => PyDict.set t p.1 p.2) t) := by
  induction l with
  | nil => intro t h; exact h
  | cons p l ih => intro t h; exact ih _ (PyDict.WF_set h _ _)

theorem get?_addDocs (t : PyDict A (List ℕ)) (p : A × List ℕ) (a : A) :
    PyDict.get? (addDocs t p) a
      = if p.1 = a then some (PyDict.getD t a [] ++ p.2) else PyDict.get? t a := by
  unfold addDocs falsy PyDict.getD
  by_cases h : p.1 = a
  · subst h
    cases hg : PyDict.get? t p.1 with
    | none => simp
    | some ids => cases ids <;> simp
  · cases hg : PyDict.get? t p.1 with
    | none => simp [PyDict.get?_set, h]
    | some ids => cases ids <;> simp [PyDict.get?_set, h]

theorem WF_addDocs {t : PyDict A (List ℕ)} (h : PyDict.WF t) (p : A × List ℕ) :
    PyDict.WF (addDocs t p) := by
  unfold addDocs
  split <;> exact PyDict.WF_set h _ _

theorem get?_foldl_addDocs (l : PyDict A (List ℕ)) :
    ∀ t : PyDict A (List ℕ), PyDict.WF l → ∀ a,
      PyDict.get? (l.foldl addDocs t) a
        = match PyDict.get? l a with
          | none => PyDict.get? t a
          | some ids => some (PyDict.getD t a [] ++ ids) := by
  induction l with
  | nil => intro t _ a; simp
  | cons p l ih =>
    intro t hw a
    obtain ⟨k', v⟩ := p
    have hw' : k' ∉ PyDict.keys l ∧ PyDict.WF l := by
      simpa [PyDict.WF, List.nodup_cons] using hw
    simp only [List.foldl_cons]
    rw [ih _ hw'.2, PyDict.get?_cons]
    by_cases h : k' = a
    · subst h
      simp [(PyDict.get?_eq_none_iff l k').2 hw'.1, get?_addDocs]
    · have hd : PyDict.getD (addDocs t (k', v)) a [] = PyDict.getD t a [] := by
        simp [PyDict.getD, get?_addDocs, h]
      rw [hd, get?_addDocs]
      simp [h]

theorem WF_foldl_addDocs (l : PyDict A (List ℕ)) :
    ∀ t : PyDict A (List ℕ), PyDict.WF t → PyDict.WF (l.foldl addDocs t) := by
  induction l with
  | nil => intro t h; exact h
  | cons p l ih => intro t h; exact ih _ (WF_addDocs h _)

/-! ### Assigning ids -/

theorem assignIds_other (as : List A) : ∀ (s : St A) (i : ℕ),
    (assignIds s i as).author2doc = s.author2doc ∧ (assignIds s i as).doc2author = s.doc2author ∧
    (assignIds s i as).numAuthors = s.numAuthors ∧ (assignIds s i as).totalDocs = s.totalDocs ∧
    (assignIds s i as).corpus = s.corpus ∧ (assignIds s i as).gamma = s.gamma := by
  induction as with
  | nil => intro s i; exact ⟨rfl, rfl, rfl, rfl, rfl, rfl⟩
  | cons a as ih => intro s i; exact ih _ _

theorem assignIds_wf (as : List A) : ∀ (s : St A) (i : ℕ), PyDict.WF s.author2id →
    PyDict.WF s.id2author →
    PyDict.WF (assignIds s i as).author2id ∧ PyDict.WF (assignIds s i as).id2author := by
  induction as with
  | nil => intro s i h h'; exact ⟨h, h'⟩
  | cons a as ih => intro s i h h'; exact ih _ _ (PyDict.WF_set h _ _) (PyDict.WF_set h' _ _)

theorem assignIds_author2id (as : List A) : ∀ (s : St A) (i : ℕ), as.Nodup → ∀ a,
    PyDict.get? (assignIds s i as).author2id a
      = if a ∈ as then some (i + as.idxOf a) else PyDict.get? s.author2id a := by
  induction as with
  | nil => intro s i _ a; simp [assignIds]
  | cons b as ih =>
    intro s i hn a
    rw [List.nodup_cons] at hn
    simp only [assignIds]
    rw [ih _ _ hn.2]
    by_cases h : a = b
    · subst h
      simp [hn.1]
    · have h' : ¬ b = a := fun e => h e.symm
      simp only [List.mem_cons, h, false_or, PyDict.get?_set, h', if_false]
      by_cases hm : a ∈ as
      · simp only [hm, if_true]
        rw [List.idxOf_cons_ne _ h']
        congr 1; omega
      · simp [hm]

theorem assignIds_id2author (as : List A) : ∀ (s : St A) (i j : ℕ),
    PyDict.get? (assignIds s i as).id2author j
      = if i ≤ j ∧ j < i + as.length then as[j - i]? else PyDict.get? s.id2author j := by
  induction as with
  | nil =>
    intro s i j
    have : ¬ (i ≤ j ∧ j < i + 0) := by omega
    simp only [List.length_nil, this, if_false]
    rfl
  | cons b as ih =>
    intro s i j
    simp only [assignIds]
    rw [ih]
    by_cases h : i = j
    · subst h
      have h1 : ¬ (i + 1 ≤ i ∧ i < i + 1 + as.length) := by omega
      simp [h1]
    · rw [PyDict.get?_set, if_neg h]
      by_cases h2 : i + 1 ≤ j ∧ j < i + 1 + as.length
      · have h3 : i ≤ j ∧ j < i + (b :: as).length := by simp; omega
        rw [if_pos h2, if_pos h3]
        have : j - i = (j - (i + 1)) + 1 := by omega
        rw [this, List.getElem?_cons_succ]
      · have h3 : ¬ (i ≤ j ∧ j < i + (b :: as).length) := by simp; omega
        rw [if_neg h2, if_neg h3]

theorem nodup_newAuthors (s : St A) {m : PyDict A (List ℕ)} (h : PyDict.WF m) :
    (newAuthors s m).Nodup :=
  List.Nodup.filter _ ((pySort_perm _ _).nodup_iff.2 h)

theorem mem_newAuthors (s : St A) (m : PyDict A (List ℕ)) (a : A) :
    a ∈ newAuthors s m ↔ a ∈ PyDict.keys m ∧ falsy s.author2doc a = true := by
  simp [newAuthors, mem_pySort]

/-! ### The fields of the model after documents are absorbed -/

theorem absorb_author2doc (s : St A) (docs : List Doc) (m : PyDict A (List ℕ))
    (m' : PyDict ℕ (List A)) (draw : ℕ → Row) :
    (absorb s docs m m' draw).1.author2doc = m.foldl addDocs s.author2doc := by
  simp only [absorb]
  rw [(assignIds_other _ _ _).1]

theorem absorb_doc2author (s : St A) (docs : List Doc) (m : PyDict A (List ℕ))
    (m' : PyDict ℕ (List A)) (draw : ℕ → Row) :
    (absorb s docs m m' draw).1.doc2author
      = m'.foldl (fun t p => PyDict.set t p.1 p.2) s.doc2author := by
  simp only [absorb]
  rw [(assignIds_other _ _ _).2.1]

theorem absorb_counts (s : St A) (docs : List Doc) (m : PyDict A (List ℕ))
    (m' : PyDict ℕ (List A)) (draw : ℕ → Row) :
    (absorb s docs m m' draw).1.numAuthors = s.numAuthors + (newAuthors s m).length ∧
    (absorb s docs m m' draw).1.totalDocs = s.totalDocs + docs.length ∧
    (absorb s docs m m' draw).1.corpus = s.corpus ++ docs ∧
    (absorb s docs m m' draw).1.gamma
      = s.gamma ++ (List.range (newAuthors s m).length).map draw := by
  simp only [absorb]
  obtain ⟨_, _, h3, h4, h5, h6⟩ := assignIds_other (newAuthors s m)
    { s with totalDocs := s.totalDocs + docs.length, corpus := s.corpus ++ docs } s.numAuthors
  exact ⟨by rw [h3], h4, h5, by rw [h6]⟩

theorem absorb_author2id (s : St A) (docs : List Doc) {m : PyDict A (List ℕ)} (hm : PyDict.WF m)
    (m' : PyDict ℕ (List A)) (draw : ℕ → Row) (a : A) :
    PyDict.get? (absorb s docs m m' draw).1.author2id a
      = if a ∈ newAuthors s m then some (s.numAuthors + (newAuthors s m).idxOf a)
        else PyDict.get? s.author2id a := by
  simp only [absorb]
  exact assignIds_author2id _ _ _ (nodup_newAuthors s hm) a

theorem absorb_id2author (s : St A) (docs : List Doc) (m : PyDict A (List ℕ))
    (m' : PyDict ℕ (List A)) (draw : ℕ → Row) (j : ℕ) :
    PyDict.get? (absorb s docs m m' draw).1.id2author j
      = if s.numAuthors ≤ j ∧ j < s.numAuthors + (newAuthors s m).length
        then (newAuthors s m)[j - s.numAuthors]? else PyDict.get? s.id2author j := by
  simp only [absorb]
  exact assignIds_id2author _ _ _ j

theorem absorb_snd (s : St A) (docs : List Doc) (m : PyDict A (List ℕ))
    (m' : PyDict ℕ (List A)) (draw : ℕ → Row) :
    (absorb s docs m m' draw).2 = trainIdx (absorb s docs m m' draw).1.author2doc := by
  simp only [absorb]

/-! ### C93: the two author tables -/

/-- **C93.** Either table may be given and the other is built from it: document `d` lists author `a`
exactly when author `a` lists document `d`; every document of the corpus gets an entry, and every author
of some document gets one. -/
theorem C93_constructed_tables :
    (∀ (n : ℕ) (m : PyDict A (List ℕ)), PyDict.WF m → ∀ d,
      (d < n → ∃ as, PyDict.get? (constructDoc2Author n m) d = some as ∧
        ∀ a, a ∈ as ↔ ∃ ids, PyDict.get? m a = some ids ∧ d ∈ ids) ∧
      (n ≤ d → PyDict.get? (constructDoc2Author n m) d = none)) ∧
    (∀ (order : List A → List A), (∀ l, (order l).Perm l) →
      ∀ (m : PyDict ℕ (List A)), PyDict.WF m → ∀ a,
      ((∃ d as, PyDict.get? m d = some as ∧ a ∈ as) →
        ∃ ids, PyDict.get? (constructAuthor2Doc order m) a = some ids ∧
          ∀ d, d ∈ ids ↔ ∃ as, PyDict.get? m d = some as ∧ a ∈ as) ∧
      ((¬ ∃ d as, PyDict.get? m d = some as ∧ a ∈ as) →
        PyDict.get? (constructAuthor2Doc order m) a = none)) := by
  constructor
  · intro n m hm d
    unfold constructDoc2Author
    rw [get?_map_pair]
    constructor
    · intro hd
      refine ⟨_, by rw [if_pos (List.mem_range.2 hd)], fun a => ?_⟩
      simp only [List.mem_map, List.mem_filter, decide_eq_true_eq]
      constructor
      · rintro ⟨⟨a', ids⟩, ⟨h1, h2⟩, rfl⟩
        exact ⟨ids, PyDict.get?_of_mem hm h1, h2⟩
      · rintro ⟨ids, h1, h2⟩
        exact ⟨(a, ids), ⟨PyDict.mem_of_get? h1, h2⟩, rfl⟩
    · intro hd
      rw [if_neg (by simp; omega)]
  · intro order ho m hm a
    unfold constructAuthor2Doc
    rw [get?_map_pair]
    have hmem : a ∈ order (authorSet m) ↔ ∃ d as, PyDict.get? m d = some as ∧ a ∈ as := by
      rw [(ho _).mem_iff]
      simp only [authorSet, List.mem_dedup, List.mem_flatMap]
      constructor
      · rintro ⟨⟨d, as⟩, h1, h2⟩
        exact ⟨d, as, PyDict.get?_of_mem hm h1, h2⟩
      · rintro ⟨d, as, h1, h2⟩
        exact ⟨(d, as), PyDict.mem_of_get? h1, h2⟩
    constructor
    · intro h
      refine ⟨_, by rw [if_pos (hmem.2 h)], fun d => ?_⟩
      simp only [List.mem_map, List.mem_filter, decide_eq_true_eq]
      constructor
      · rintro ⟨⟨d', as⟩, ⟨h1, h2⟩, rfl⟩
        exact ⟨as, PyDict.get?_of_mem hm h1, h2⟩
      · rintro ⟨as, h1, h2⟩
        exact ⟨(d, as), ⟨PyDict.mem_of_get? h1, h2⟩, rfl⟩
    · intro h
      rw [if_neg (fun h' => h (hmem.1 h'))]

example : constructDoc2Author 3 ([(7, [0, 2]), (5, [2])] : PyDict ℕ (List ℕ))
    = [(0, [7]), (1, []), (2, [7, 5])] := by decide

/-! ### C93: author ids over any history -/

/-- The consistency of the tables of a model. -/
structure Consistent (s : St A) : Prop where
  wfDoc : PyDict.WF s.author2doc
  wfId : PyDict.WF s.author2id
  wfName : PyDict.WF s.id2author
  /-- the id of an author leads back to the author -/
  back : ∀ a i, PyDict.get? s.author2id a = some i → PyDict.get? s.id2author i = some a
  /-- ids are below the number of authors -/
  small : ∀ i ∈ PyDict.keys s.id2author, i < s.numAuthors
  /-- every author with a document list has an id -/
  known : ∀ a ∈ PyDict.keys s.author2doc, a ∈ PyDict.keys s.author2id
  /-- one row of `gamma` per id -/
  rows : s.gamma.length = s.numAuthors
  /-- the stored corpus has the counted length -/
  docs : s.corpus.length = s.totalDocs

theorem consistent_empty : Consistent (St.empty A) :=
  ⟨by simp [St.empty], by simp [St.empty], by simp [St.empty], by simp [St.empty],
    by simp [St.empty], by simp [St.empty], rfl, rfl⟩

theorem consistent_absorb {s : St A} (hs : Consistent s) (docs : List Doc) {m : PyDict A (List ℕ)}
    (hm : PyDict.WF m) (m' : PyDict ℕ (List A)) (draw : ℕ → Row) :
    Consistent (absorb s docs m m' draw).1 := by
  have hn := nodup_newAuthors s hm
  obtain ⟨c1, c2, c3, c4⟩ := absorb_counts s docs m m' draw
  refine ⟨?_, ?_, ?_, ?_, ?_, ?_, ?_, ?_⟩
  · rw [absorb_author2doc]; exact WF_foldl_addDocs _ _ hs.wfDoc
  · simp only [absorb]; refine (assignIds_wf _ _ _ ?_ ?_).1 <;> [exact hs.wfId; exact hs.wfName]
  · simp only [absorb]; refine (assignIds_wf _ _ _ ?_ ?_).2 <;> [exact hs.wfId; exact hs.wfName]
  · intro a i h
    rw [absorb_author2id s docs hm] at h
    rw [absorb_id2author]
    by_cases ha : a ∈ newAuthors s m
    · rw [if_pos ha] at h
      have hlt := List.idxOf_lt_length_iff.2 ha
      injection h with h
      subst h
      rw [if_pos ⟨by omega, by omega⟩, Nat.add_sub_cancel_left]
      rw [List.getElem?_eq_getElem hlt, List.getElem_idxOf]
    · rw [if_neg ha] at h
      have h1 := hs.back a i h
      have h2 := hs.small i ((PyDict.get?_isSome_iff _ _).1 (by rw [h1]; rfl))
      rw [if_neg (by omega)]
      exact h1
  · intro i hi
    rw [← PyDict.get?_isSome_iff, absorb_id2author] at hi
    rw [c1]
    split at hi
    · omega
    · have := hs.small i ((PyDict.get?_isSome_iff _ _).1 hi)
      omega
  · intro a ha
    rw [← PyDict.get?_isSome_iff] at ha ⊢
    rw [absorb_author2doc, get?_foldl_addDocs m _ hm] at ha
    rw [absorb_author2id s docs hm]
    by_cases hna : a ∈ newAuthors s m
    · rw [if_pos hna]; rfl
    · rw [if_neg hna, PyDict.get?_isSome_iff]
      apply hs.known
      rw [← PyDict.get?_isSome_iff]
      cases hg : PyDict.get? m a with
      | none => rw [hg] at ha; exact ha
      | some ids =>
        rw [mem_newAuthors] at hna
        have hk : a ∈ PyDict.keys m := (PyDict.get?_isSome_iff _ _).1 (by rw [hg]; rfl)
        have hf : ¬ falsy s.author2doc a = true := fun h => hna ⟨hk, h⟩
        unfold falsy at hf
        cases h : PyDict.get? s.author2doc a with
        | none => rw [h] at hf; simp at hf
        | some _ => rfl
  · rw [c1, c4]; simp [hs.rows]
  · rw [c2, c3]; simp [hs.docs]

/-- The tables given by a caller: association lists of Python dictionaries. -/
def GivenOk (a2d : Option (PyDict A (List ℕ))) : Prop := ∀ m, a2d = some m → PyDict.WF m

theorem wf_constructAuthor2Doc {order : List A → List A} (ho : ∀ l, (order l).Perm l)
    (m : PyDict ℕ (List A)) : PyDict.WF (constructAuthor2Doc order m) := by
  unfold PyDict.WF constructAuthor2Doc
  rw [keys_map_pair, (ho _).nodup_iff]
  exact List.nodup_dedup _

theorem wf_constructDoc2Author (n : ℕ) (m : PyDict A (List ℕ)) :
    PyDict.WF (constructDoc2Author n m) := by
  unfold PyDict.WF constructDoc2Author
  rw [keys_map_pair]
  exact List.nodup_range

/-- What `update` with a corpus does, in terms of the pair of tables it ends up with. -/
theorem prepare_cases {s s' : St A} {order : List A → List A} (ho : ∀ l, (order l).Perm l)
    {c : Option (List Doc)} {a2d : Option (PyDict A (List ℕ))} {d2a : Option (PyDict ℕ (List A))}
    {draw : ℕ → Row} {t : Option (List ℕ)} (hg : GivenOk a2d)
    (h : prepare s order c a2d d2a draw = .ok (s', t)) :
    s' = s ∨ ∃ docs m m', c = some docs ∧ docs ≠ [] ∧ PyDict.WF m ∧
      s' = (absorb s docs m m' draw).1 ∧ t = some (absorb s docs m m' draw).2 ∧
      (∀ x, a2d = some x → m = x) ∧ (∀ x, d2a = some x → m' = x) := by
  unfold prepare at h
  cases c with
  | none =>
    simp only at h
    split at h
    · injection h with h; injection h with h1 h2; exact Or.inl h1.symm
    · cases h
  | some docs =>
    cases a2d with
    | none =>
      cases d2a with
      | none => cases h
      | some m' =>
        simp only at h
        split at h
        · injection h with h; injection h with h1 h2; exact Or.inl h1.symm
        · rename_i hd
          injection h with h; injection h with h1 h2
          exact Or.inr ⟨docs, _, m', rfl, fun e => hd (by rw [e]; rfl),
            wf_constructAuthor2Doc ho m', h1.symm, h2.symm, fun x hx => (by cases hx),
            fun x hx => (by injection hx)⟩
    | some m =>
      have hm := hg m rfl
      cases d2a with
      | none =>
        simp only at h
        split at h
        · injection h with h; injection h with h1 h2; exact Or.inl h1.symm
        · rename_i hd
          injection h with h; injection h with h1 h2
          exact Or.inr ⟨docs, m, _, rfl, fun e => hd (by rw [e]; rfl), hm, h1.symm, h2.symm,
            fun x hx => (by injection hx), fun x hx => (by cases hx)⟩
      | some m' =>
        simp only at h
        split at h
        · injection h with h; injection h with h1 h2; exact Or.inl h1.symm
        · rename_i hd
          injection h with h; injection h with h1 h2
          exact Or.inr ⟨docs, m, m', rfl, fun e => hd (by rw [e]; rfl), hm, h1.symm, h2.symm,
            fun x hx => (by injection hx), fun x hx => (by injection hx)⟩

/-- Inference changes `gamma` only, and keeps its number of rows. -/
def SameTables (s s' : St A) : Prop :=
  s'.author2doc = s.author2doc ∧ s'.doc2author = s.doc2author ∧ s'.author2id = s.author2id ∧
  s'.id2author = s.id2author ∧ s'.numAuthors = s.numAuthors ∧ s'.totalDocs = s.totalDocs ∧
  s'.corpus = s.corpus ∧ s'.gamma.length = s.gamma.length

theorem SameTables.refl (s : St A) : SameTables s s := ⟨rfl, rfl, rfl, rfl, rfl, rfl, rfl, rfl⟩

theorem SameTables.trans {s s' s'' : St A} (h : SameTables s s') (h' : SameTables s' s'') :
    SameTables s s'' := by
  obtain ⟨a1, a2, a3, a4, a5, a6, a7, a8⟩ := h
  obtain ⟨b1, b2, b3, b4, b5, b6, b7, b8⟩ := h'
  exact ⟨b1.trans a1, b2.trans a2, b3.trans a3, b4.trans a4, b5.trans a5, b6.trans a6, b7.trans a7,
    b8.trans a8⟩

theorem length_storeRows (ps : List (ℕ × Row)) : ∀ g : List Row, (storeRows g ps).length = g.length := by
  induction ps with
  | nil => intro g; rfl
  | cons p ps ih => intro g; simp only [storeRows]; rw [ih]; simp

theorem sameTables_inferDoc {P : Par} {rho : ℚ} {s s' : St A} {d : ℕ} {doc : Doc}
    (h : inferDoc P rho s d doc = .ok s') : SameTables s s' := by
  unfold inferDoc at h
  split at h
  · cases h
  · split at h
    · injection h with h
      subst h
      exact ⟨rfl, rfl, rfl, rfl, rfl, rfl, rfl, length_storeRows _ _⟩
    · cases h

theorem sameTables_infer (P : Par) (rho : ℚ) (ps : List (ℕ × Doc)) : ∀ s : St A,
    SameTables s (infer P rho s ps).2 := by
  induction ps with
  | nil => intro s; exact SameTables.refl s
  | cons p ps ih =>
    intro s
    simp only [infer]
    split
    · exact SameTables.refl s
    · rename_i s' h
      exact (sameTables_inferDoc h).trans (ih s')

theorem sameTables_trainPass (P : Par) (ps : List (ℕ × ℚ)) : ∀ s : St A,
    SameTables s (trainPass P s ps).2 := by
  induction ps with
  | nil => intro s; exact SameTables.refl s
  | cons p ps ih =>
    intro s
    simp only [trainPass]
    split
    · exact SameTables.refl s
    · split
      · exact SameTables.refl s
      · rename_i s' h
        exact (sameTables_inferDoc h).trans (ih s')

theorem SameTables.consistent {s s' : St A} (h : SameTables s s') (hs : Consistent s) :
    Consistent s' := by
  obtain ⟨a1, _, a3, a4, a5, a6, a7, a8⟩ := h
  exact ⟨a1 ▸ hs.wfDoc, a3 ▸ hs.wfId, a4 ▸ hs.wfName, by rw [a3, a4]; exact hs.back,
    by rw [a4, a5]; exact hs.small, by rw [a1, a3]; exact hs.known, by rw [a8, a5]; exact hs.rows,
    by rw [a7, a6]; exact hs.docs⟩

/-- The model after the query, in the tables that do not mention documents. -/
theorem query_tables (P : Par) (rho : ℚ) {s : St A} (hs : Consistent s) (ph : A) (docs : List Doc)
    (minProb : ℚ) (draw : Row) :
    ∃ d2a g, (getNewAuthorTopics P rho s ph docs minProb draw).2
        = { s with doc2author := d2a, gamma := g } ∧ g.length = s.gamma.length := by
  unfold getNewAuthorTopics
  split
  · exact ⟨_, _, rfl, rfl⟩
  · split
    · exact ⟨_, _, rfl, rfl⟩
    · rename_i hc
      have hid : ph ∉ PyDict.keys s.author2id := by
        rw [← PyDict.contains_iff]; exact hc
      have hdoc : ph ∉ PyDict.keys s.author2doc := fun h => hid (hs.known ph h)
      have hname : s.numAuthors ∉ PyDict.keys s.id2author := fun h =>
        absurd (hs.small _ h) (lt_irrefl _)
      have key : ∀ s2 : St A, SameTables (addPlaceholder s ph docs.length draw) s2 →
          ∃ d2a g, rollback s2 ph (queryIdx s docs.length)
            = { s with doc2author := d2a, gamma := g } ∧ g.length = s.gamma.length := by
        intro s2 h2
        obtain ⟨a1, a2, a3, a4, a5, a6, a7, a8⟩ := h2
        refine ⟨(queryIdx s docs.length).foldl PyDict.erase s2.doc2author, s2.gamma.dropLast, ?_, ?_⟩
        · unfold rollback
          rw [a1, a3, a4]
          have e : PyDict.getD (addPlaceholder s ph docs.length draw).author2id ph 0
              = s.numAuthors := by
            simp [addPlaceholder, PyDict.getD]
          rw [e]
          have e1 : PyDict.erase (addPlaceholder s ph docs.length draw).author2doc ph
              = s.author2doc := erase_set _ hdoc
          have e2 : PyDict.erase (addPlaceholder s ph docs.length draw).author2id ph
              = s.author2id := erase_set _ hid
          have e3 : PyDict.erase (addPlaceholder s ph docs.length draw).id2author s.numAuthors
              = s.id2author := erase_set _ hname
          rw [e1, e2, e3]
          cases s2
          simp only at a5 a6 a7 ⊢
          rw [a5, a6, a7]
          rfl
        · rw [List.length_dropLast, a8]
          simp [addPlaceholder]
      have hst := sameTables_infer P rho ((queryIdx s docs.length).zip docs)
        (addPlaceholder s ph docs.length draw)
      obtain ⟨d2a, g, e, hl⟩ := key _ hst
      refine ⟨d2a, g, ?_, hl⟩
      simp only
      rcases hinf : infer P rho (addPlaceholder s ph docs.length draw)
        ((queryIdx s docs.length).zip docs) with ⟨_ | er, s2⟩ <;> rw [hinf] at e <;> exact e

/-- The models a caller can build: any sequence of updates (which may fail), training passes (which may
stop with an exception) and queries about new authors. -/
inductive Reach : St A → Prop
  | init : Reach (St.empty A)
  | update {s s' : St A} {order : List A → List A} {c : Option (List Doc)}
      {a2d : Option (PyDict A (List ℕ))} {d2a : Option (PyDict ℕ (List A))} {draw : ℕ → Row}
      {t : Option (List ℕ)} : Reach s → (∀ l, (order l).Perm l) → GivenOk a2d →
      prepare s order c a2d d2a draw = .ok (s', t) → Reach s'
  | train {s : St A} (P : Par) (ps : List (ℕ × ℚ)) : Reach s → Reach (trainPass P s ps).2
  | query {s : St A} (P : Par) (rho : ℚ) (ph : A) (docs : List Doc) (minProb : ℚ) (draw : Row) :
      Reach s → Reach (getNewAuthorTopics P rho s ph docs minProb draw).2

theorem Reach.consistent {s : St A} (h : Reach s) : Consistent s := by
  induction h with
  | init => exact consistent_empty
  | update _ ho hg hp ih =>
    rcases prepare_cases ho hg hp with e | ⟨docs, m, m', _, _, hm, e, _⟩
    · rw [e]; exact ih
    · rw [e]; exact consistent_absorb ih docs hm m' _
  | train P ps _ ih => exact (sameTables_trainPass P ps _).consistent ih
  | query P rho ph docs mp draw _ ih =>
    obtain ⟨d2a, g, e, hl⟩ := query_tables P rho ih ph docs mp draw
    rw [e]
    exact ⟨ih.wfDoc, ih.wfId, ih.wfName, ih.back, ih.small, ih.known, by simpa [hl] using ih.rows,
      ih.docs⟩

/-- **C93.** Whatever is done with a model, its author ids are usable: the id of an author leads back to
the author, so no two authors share an id; ids are below `num_authors`; every author with documents has
one; and there is exactly one row of `gamma` per id and one stored document per counted document. -/
theorem C93_author_ids {s : St A} (h : Reach s) :
    (∀ a i, PyDict.get? s.author2id a = some i →
      i < s.numAuthors ∧ i < s.gamma.length ∧ PyDict.get? s.id2author i = some a) ∧
    (∀ a b i, PyDict.get? s.author2id a = some i → PyDict.get? s.author2id b = some i → a = b) ∧
    (∀ a ids, PyDict.get? s.author2doc a = some ids → ∃ i, PyDict.get? s.author2id a = some i) ∧
    s.gamma.length = s.numAuthors ∧ s.corpus.length = s.totalDocs := by
  have hc := h.consistent
  refine ⟨fun a i h1 => ?_, fun a b i h1 h2 => ?_, fun a ids h1 => ?_, hc.rows, hc.docs⟩
  · have h2 := hc.back a i h1
    have h3 := hc.small i ((PyDict.get?_isSome_iff _ _).1 (by rw [h2]; rfl))
    exact ⟨h3, by rw [hc.rows]; exact h3, h2⟩
  · have h3 := hc.back a i h1
    rw [hc.back b i h2] at h3
    injection h3 with h3
    exact h3.symm
  · have h2 := hc.known a ((PyDict.get?_isSome_iff _ _).1 (by rw [h1]; rfl))
    exact Option.isSome_iff_exists.1 ((PyDict.get?_isSome_iff _ _).2 h2)

/-! ### The first update -/

theorem idxOf_sorted {l : List A} (h : l.Pairwise (· < ·)) {a : A} (ha : a ∈ l) :
    l.idxOf a = (l.filter fun b => decide (b < a)).length := by
  induction l with
  | nil => simp at ha
  | cons x xs ih =>
    rw [List.pairwise_cons] at h
    by_cases hx : x = a
    · subst hx
      have : xs.filter (fun b => decide (b < x)) = [] := by
        rw [List.filter_eq_nil_iff]
        intro b hb
        simpa using le_of_lt (h.1 b hb)
      simp [this]
    · have ha' : a ∈ xs := by
        rcases List.mem_cons.1 ha with e | e
        · exact absurd e.symm hx
        · exact e
      rw [List.idxOf_cons_ne _ hx, ih h.2 ha']
      have : decide (x < a) = true := decide_eq_true (h.1 a ha')
      simp [this]

theorem sorted_lt {l : List A} (h : l.Nodup) :
    (pySort (fun a b => decide (a ≤ b)) l).Pairwise (· < ·) := by
  have h1 : (pySort (fun a b => decide (a ≤ b)) l).Pairwise (fun a b => decide (a ≤ b) = true) :=
    pySort_sorted (fun a b => by simpa using le_total a b)
      (fun a b c h1 h2 => by simp only [decide_eq_true_eq] at *; exact le_trans h1 h2) l
  have h2 : (pySort (fun a b => decide (a ≤ b)) l).Nodup := (pySort_perm _ _).nodup_iff.2 h
  exact (h1.and h2).imp fun ⟨h3, h4⟩ => lt_of_le_of_ne (by simpa using h3) h4

theorem newAuthors_empty (m : PyDict A (List ℕ)) :
    newAuthors (St.empty A) m = pySort (fun a b => decide (a ≤ b)) (PyDict.keys m) := by
  unfold newAuthors
  rw [List.filter_eq_self]
  intro a _
  rfl

/-- **C93.** The first update: authors are numbered by their rank among the given names, the model has
one row per author, and each given document list is stored as given. -/
theorem C93_first_update {order : List A → List A} (ho : ∀ l, (order l).Perm l)
    {docs : List Doc} (hd : docs ≠ []) {m : PyDict A (List ℕ)} (hm : PyDict.WF m)
    (d2a : Option (PyDict ℕ (List A))) (draw : ℕ → Row) :
    ∃ s t, prepare (St.empty A) order (some docs) (some m) d2a draw = .ok (s, some t) ∧
      (∀ a ∈ PyDict.keys m, PyDict.get? s.author2id a
        = some ((PyDict.keys m).filter fun b => decide (b < a)).length) ∧
      s.numAuthors = m.length ∧ s.gamma = (List.range m.length).map draw ∧
      s.totalDocs = docs.length ∧ s.corpus = docs ∧
      (∀ a, PyDict.get? s.author2doc a = PyDict.get? m a) := by
  have hd' : ¬ docs.length = 0 := fun h => hd (List.length_eq_zero_iff.1 h)
  have key : ∀ m' : PyDict ℕ (List A), ∀ s t, absorb (St.empty A) docs m m' draw = (s, t) →
      (∀ a ∈ PyDict.keys m, PyDict.get? s.author2id a
        = some ((PyDict.keys m).filter fun b => decide (b < a)).length) ∧
      s.numAuthors = m.length ∧ s.gamma = (List.range m.length).map draw ∧
      s.totalDocs = docs.length ∧ s.corpus = docs ∧
      (∀ a, PyDict.get? s.author2doc a = PyDict.get? m a) := by
    intro m' s t e
    have es : s = (absorb (St.empty A) docs m m' draw).1 := by rw [e]
    obtain ⟨c1, c2, c3, c4⟩ := absorb_counts (St.empty A) docs m m' draw
    rw [newAuthors_empty, length_pySort, PyDict.length_keys] at c1 c4
    refine ⟨fun a ha => ?_, ?_, ?_, ?_, ?_, fun a => ?_⟩
    · rw [es, absorb_author2id _ docs hm]
      rw [newAuthors_empty, if_pos (mem_pySort.2 ha)]
      have h1 := idxOf_sorted (sorted_lt hm) (mem_pySort.2 ha)
      rw [h1]
      have h2 : ((pySort (fun a b => decide (a ≤ b)) (PyDict.keys m)).filter
          fun b => decide (b < a)).length = ((PyDict.keys m).filter fun b => decide (b < a)).length :=
        ((pySort_perm _ _).filter _).length_eq
      rw [h2]
      simp [St.empty]
    · rw [es, c1]; simp [St.empty]
    · rw [es, c4]; simp [St.empty]
    · rw [es, c2]; simp [St.empty]
    · rw [es, c3]; simp [St.empty]
    · rw [es, absorb_author2doc, get?_foldl_addDocs m _ hm]
      cases h : PyDict.get? m a with
      | none => simp [St.empty]
      | some ids => simp [St.empty, PyDict.getD]
  cases d2a with
  | none =>
    refine ⟨(absorb (St.empty A) docs m (constructDoc2Author docs.length m) draw).1,
      (absorb (St.empty A) docs m (constructDoc2Author docs.length m) draw).2, ?_,
      key (constructDoc2Author docs.length m) _ _ rfl⟩
    simp [prepare, hd]
  | some m' =>
    refine ⟨(absorb (St.empty A) docs m m' draw).1, (absorb (St.empty A) docs m m' draw).2, ?_,
      key m' _ _ rfl⟩
    simp [prepare, hd]

/-! ### Later updates -/

/-- **C93.** The documents trained on after an update with a corpus: the distinct documents, in
increasing order, of *all* authors the model has ever seen — not only of the authors in the input. -/
theorem C93_trained_documents {s s' : St A} (h : Reach s) {order : List A → List A}
    (ho : ∀ l, (order l).Perm l) {docs : List Doc} (hd : docs ≠ [])
    {a2d : Option (PyDict A (List ℕ))} {d2a : Option (PyDict ℕ (List A))} {draw : ℕ → Row}
    {t : Option (List ℕ)} (hg : GivenOk a2d)
    (hp : prepare s order (some docs) a2d d2a draw = .ok (s', t)) :
    ∃ l, t = some l ∧ l.Pairwise (· < ·) ∧
      ∀ d, d ∈ l ↔ ∃ a ids, PyDict.get? s'.author2doc a = some ids ∧ d ∈ ids := by
  have hw : PyDict.WF s'.author2doc := (Reach.update h ho hg hp).consistent.wfDoc
  have hlen : ¬ docs.length = 0 := fun h => hd (List.length_eq_zero_iff.1 h)
  have key : ∃ m m', s' = (absorb s docs m m' draw).1 ∧ t = some (absorb s docs m m' draw).2 := by
    rcases prepare_cases ho hg hp with e | ⟨docs', m, m', e1, _, _, e, e', _⟩
    · cases a2d <;> cases d2a <;> simp only [prepare, hlen, if_false] at hp
      · cases hp
      all_goals
        injection hp with hp
        injection hp with h1 h2
        exact ⟨_, _, h1.symm, h2.symm⟩
    · injection e1 with e1
      subst e1
      exact ⟨m, m', e, e'⟩
  obtain ⟨m, m', e, e'⟩ := key
  refine ⟨_, e', ?_, fun d => ?_⟩
  · rw [absorb_snd]
    exact sorted_lt (List.nodup_dedup _)
  · rw [absorb_snd, ← e]
    unfold trainIdx
    rw [mem_pySort, List.mem_dedup, List.mem_flatMap]
    constructor
    · rintro ⟨⟨a, ids⟩, h1, h2⟩
      exact ⟨a, ids, PyDict.get?_of_mem hw h1, h2⟩
    · rintro ⟨a, ids, h1, h2⟩
      exact ⟨(a, ids), PyDict.mem_of_get? h1, h2⟩

/-- **C93.** An author that has documents keeps their id, and keeps all their documents, through every
update. -/
theorem C93_author_keeps_id {s s' : St A} (_h : Reach s) {order : List A → List A}
    (ho : ∀ l, (order l).Perm l) {c : Option (List Doc)}
    {a2d : Option (PyDict A (List ℕ))} {d2a : Option (PyDict ℕ (List A))} {draw : ℕ → Row}
    {t : Option (List ℕ)} (hg : GivenOk a2d)
    (hp : prepare s order c a2d d2a draw = .ok (s', t))
    {a : A} {ids : List ℕ} (ha : PyDict.get? s.author2doc a = some ids) (hne : ids ≠ []) :
    PyDict.get? s'.author2id a = PyDict.get? s.author2id a ∧
      ∃ ids', PyDict.get? s'.author2doc a = some ids' ∧ ids <+: ids' := by
  rcases prepare_cases ho hg hp with e | ⟨docs, m, m', _, _, hm, e, _⟩
  · rw [e]; exact ⟨rfl, ids, ha, List.prefix_refl _⟩
  · subst e
    constructor
    · rw [absorb_author2id _ _ hm, if_neg]
      rw [mem_newAuthors]
      rintro ⟨_, hf⟩
      unfold falsy at hf
      rw [ha] at hf
      simp [hne] at hf
    · rw [absorb_author2doc, get?_foldl_addDocs m _ hm]
      cases hg' : PyDict.get? m a with
      | none => exact ⟨ids, ha, List.prefix_refl _⟩
      | some x => exact ⟨_, rfl, by simp [PyDict.getD, ha]⟩

/-- **C93 (finding).** An author entered with an empty document list is taken for a new author at every
later update that names them: they get another id, a second row, and the old id still leads to them. -/
theorem C93_author_without_documents {s s' : St A} (h : Reach s) {order : List A → List A}
    (ho : ∀ l, (order l).Perm l) {docs : List Doc} (hd : docs ≠ [])
    {m : PyDict A (List ℕ)} (hm : PyDict.WF m) {d2a : Option (PyDict ℕ (List A))} {draw : ℕ → Row}
    {t : Option (List ℕ)} (hp : prepare s order (some docs) (some m) d2a draw = .ok (s', t))
    {a : A} (ha : PyDict.get? s.author2doc a = some []) (hin : a ∈ PyDict.keys m) :
    ∃ i j, PyDict.get? s.author2id a = some i ∧ PyDict.get? s'.author2id a = some j ∧ i ≠ j ∧
      PyDict.get? s'.id2author i = some a ∧ PyDict.get? s'.id2author j = some a := by
  have hg : GivenOk (some m) := fun x hx => by injection hx with hx; exact hx ▸ hm
  have hlen : ¬ docs.length = 0 := fun h => hd (List.length_eq_zero_iff.1 h)
  have hs' := (Reach.update h ho hg hp).consistent
  obtain ⟨i, hi⟩ := (C93_author_ids h).2.2.1 a [] ha
  obtain ⟨hi1, _, hi2⟩ := (C93_author_ids h).1 a i hi
  have hnew : a ∈ newAuthors s m := (mem_newAuthors s m a).2 ⟨hin, by simp [falsy, ha]⟩
  have key : ∀ m', s' = (absorb s docs m m' draw).1 → ∃ i j, PyDict.get? s.author2id a = some i ∧
      PyDict.get? s'.author2id a = some j ∧ i ≠ j ∧
      PyDict.get? s'.id2author i = some a ∧ PyDict.get? s'.id2author j = some a := by
    intro m' e
    have hj : PyDict.get? s'.author2id a = some (s.numAuthors + (newAuthors s m).idxOf a) := by
      rw [e, absorb_author2id _ _ hm, if_pos hnew]
    refine ⟨i, _, hi, hj, by omega, ?_, hs'.back _ _ hj⟩
    rw [e, absorb_id2author, if_neg (by omega)]
    exact hi2
  cases d2a <;> simp only [prepare, hlen, if_false] at hp
  all_goals
    injection hp with hp
    injection hp with h1 h2
    exact key _ h1.symm

/-- **C93 (finding).** The documented way to add documents — the second call's tables number its
documents from `0` — goes wrong: the new documents are not re-indexed.  Whenever the second corpus is not
longer than what the model has seen, no new document is trained on, and each entry given for a new document
replaces the authors of the *old* document of that number. -/
theorem C93_second_update_not_reindexed {s s' : St A} (h : Reach s)
    {order : List A → List A} (ho : ∀ l, (order l).Perm l) {docs : List Doc} (hd : docs ≠ [])
    {m : PyDict A (List ℕ)} (hm : PyDict.WF m) {m' : PyDict ℕ (List A)} (hm' : PyDict.WF m')
    {draw : ℕ → Row} {t : Option (List ℕ)}
    (hp : prepare s order (some docs) (some m) (some m') draw = .ok (s', t))
    (hold : ∀ a ids, PyDict.get? s.author2doc a = some ids → ∀ d ∈ ids, d < s.totalDocs)
    (hnew : ∀ a ids, PyDict.get? m a = some ids → ∀ d ∈ ids, d < docs.length)
    (hle : docs.length ≤ s.totalDocs) :
    (∀ l, t = some l → ∀ d ∈ l, d < s.totalDocs) ∧
    (∀ d as, PyDict.get? m' d = some as → PyDict.get? s'.doc2author d = some as) := by
  have hg : GivenOk (some m) := fun x hx => by injection hx with hx; exact hx ▸ hm
  have hlen : ¬ docs.length = 0 := fun h => hd (List.length_eq_zero_iff.1 h)
  obtain ⟨l, hl, _, hmem⟩ := C93_trained_documents h ho hd hg hp
  simp only [prepare, hlen, if_false] at hp
  injection hp with hp
  injection hp with h1 h2
  constructor
  · intro l' hl' d hdl
    rw [hl] at hl'
    injection hl' with hl'
    subst hl'
    obtain ⟨a, ids, ha, hdi⟩ := (hmem d).1 hdl
    rw [← h1, absorb_author2doc, get?_foldl_addDocs m _ hm] at ha
    cases hma : PyDict.get? m a with
    | none => rw [hma] at ha; exact hold a ids ha d hdi
    | some x =>
      rw [hma] at ha
      simp only [Option.some.injEq] at ha
      subst ha
      rcases List.mem_append.1 hdi with h3 | h3
      · unfold PyDict.getD at h3
        cases hsa : PyDict.get? s.author2doc a with
        | none => rw [hsa] at h3; simp at h3
        | some y => rw [hsa] at h3; exact hold a y hsa d h3
      · exact lt_of_lt_of_le (hnew a x hma d h3) hle
  · intro d as has
    rw [← h1, absorb_doc2author, get?_foldl_set _ _ hm', has]
    rfl

/-- A first update: documents `0` and `1` by authors `10` and `20`. -/
def firstModel : St ℕ :=
  (absorb (St.empty ℕ) [[(0, 1)], [(1, 1)]] [(10, [0]), (20, [1])] [(0, [10]), (1, [20])]
    (fun _ => [1, 1])).1

/-- The second update of the example: one more document by author `30`. -/
def secondModel : St ℕ × List ℕ :=
  absorb firstModel [[(2, 1)]] [(30, [0])] [(0, [30])] (fun _ => [1, 1])

/-- **C93 (finding), on a case.** After the second call the model claims author `30` wrote document `0` (it
was written by `10`), the new document `2` has no author and is not trained on. -/
theorem C93_second_update_example :
    secondModel.1.totalDocs = 3 ∧ secondModel.2 = [0, 1] ∧
    PyDict.get? secondModel.1.doc2author 0 = some [30] ∧
    PyDict.get? secondModel.1.doc2author 2 = none ∧
    PyDict.get? secondModel.1.author2doc 10 = some [0] ∧
    PyDict.get? secondModel.1.author2doc 30 = some [0] := by decide

/-- **C93.** A caller that numbers the new documents from the number already seen gets what they asked
for: new documents have the given authors, old documents keep theirs, and every author's list is the old
one followed by the given one. -/
theorem C93_shifted_update {s s' : St A} (_h : Reach s)
    {order : List A → List A} {docs : List Doc} (hd : docs ≠ [])
    {m : PyDict A (List ℕ)} (hm : PyDict.WF m) {m' : PyDict ℕ (List A)} (hm' : PyDict.WF m')
    {draw : ℕ → Row} {t : Option (List ℕ)}
    (hp : prepare s order (some docs) (some m) (some m') draw = .ok (s', t))
    (hshift : ∀ d ∈ PyDict.keys m', s.totalDocs ≤ d) :
    (∀ d < s.totalDocs, PyDict.get? s'.doc2author d = PyDict.get? s.doc2author d) ∧
    (∀ d as, PyDict.get? m' d = some as → PyDict.get? s'.doc2author d = some as) ∧
    (∀ a, PyDict.getD s'.author2doc a [] = PyDict.getD s.author2doc a [] ++ PyDict.getD m a []) ∧
    s'.corpus = s.corpus ++ docs := by
  have hlen : ¬ docs.length = 0 := fun h => hd (List.length_eq_zero_iff.1 h)
  simp only [prepare, hlen, if_false] at hp
  injection hp with hp
  injection hp with h1 h2
  refine ⟨fun d hlt => ?_, fun d as has => ?_, fun a => ?_, ?_⟩
  · rw [← h1, absorb_doc2author, get?_foldl_set _ _ hm']
    have : PyDict.get? m' d = none := by
      rw [PyDict.get?_eq_none_iff]
      intro hk
      exact absurd (hshift d hk) (by omega)
    rw [this]; rfl
  · rw [← h1, absorb_doc2author, get?_foldl_set _ _ hm', has]
    rfl
  · rw [← h1, absorb_author2doc]
    simp only [PyDict.getD]
    rw [get?_foldl_addDocs m _ hm]
    cases hg : PyDict.get? m a with
    | none => simp
    | some ids => simp [PyDict.getD]
  · rw [← h1]; exact (absorb_counts _ _ _ _ _).2.2.1

example : (absorb firstModel [[(2, 1)]] [(30, [2])] [(2, [30])] (fun _ => [1, 1])).2 = [0, 1, 2] ∧
    PyDict.get? (absorb firstModel [[(2, 1)]] [(30, [2])] [(2, [30])]
      (fun _ => [1, 1])).1.doc2author 0 = some [10] := by decide

example : Reach firstModel := by
  have hp : prepare (St.empty ℕ) id (some [[(0, 1)], [(1, 1)]]) (some [(10, [0]), (20, [1])])
      (some [(0, [10]), (1, [20])]) (fun _ => [1, 1]) = .ok (firstModel, some [0, 1]) := by decide
  exact Reach.update Reach.init (fun l => List.Perm.refl l)
    (fun x hx => by injection hx with hx; subst hx; unfold PyDict.WF; decide) hp

/-! ### Queries about a new author -/

theorem foldl_set_fresh (idx : List ℕ) (v : List A) : ∀ t : PyDict ℕ (List A), idx.Nodup →
    (∀ d ∈ idx, d ∉ PyDict.keys t) →
    (idx.foldl (fun t d => PyDict.set t d v) t) = t ++ idx.map fun d => (d, v) := by
  induction idx with
  | nil => intro t _ _; simp
  | cons d ds ih =>
    intro t hn hf
    rw [List.nodup_cons] at hn
    simp only [List.foldl_cons]
    rw [PyDict.set_of_not_mem (hf d (by simp)), ih _ hn.2]
    · simp
    · intro x hx
      simp only [PyDict.keys_append, List.mem_append, PyDict.keys_cons, PyDict.keys_nil,
        List.mem_singleton, not_or]
      exact ⟨hf x (by simp [hx]), fun e => hn.1 (e ▸ hx)⟩

theorem erase_append_of_not_mem {κ ν : Type} [DecidableEq κ] {t u : PyDict κ ν} {k : κ}
    (h : k ∉ PyDict.keys t) : PyDict.erase (t ++ u) k = t ++ PyDict.erase u k := by
  induction t with
  | nil => rfl
  | cons p t ih =>
    obtain ⟨k', v⟩ := p
    simp only [PyDict.keys_cons, List.mem_cons, not_or] at h
    have : ¬ k' = k := fun e => h.1 e.symm
    simp [PyDict.erase, this, ih h.2]

theorem foldl_erase_fresh (idx : List ℕ) (v : List A) : ∀ t : PyDict ℕ (List A), idx.Nodup →
    (∀ d ∈ idx, d ∉ PyDict.keys t) →
    idx.foldl PyDict.erase (t ++ idx.map fun d => (d, v)) = t := by
  induction idx with
  | nil => intro t _ _; simp
  | cons d ds ih =>
    intro t hn hf
    rw [List.nodup_cons] at hn
    simp only [List.foldl_cons, List.map_cons]
    rw [erase_append_of_not_mem (hf d (by simp))]
    have : PyDict.erase ((d, v) :: ds.map fun d => (d, v)) d = ds.map fun d => (d, v) := by
      simp only [PyDict.erase, if_true]
      exact erase_of_not_mem (by rw [keys_map_pair]; exact hn.1)
    rw [this]
    exact ih t hn.2 fun x hx => hf x (by simp [hx])

/-- Specification of the answer: the query's row is inferred from the drawn row, document after document,
using nothing but the documents themselves. -/
def queryRow (P : Par) (rho : ℚ) (n : ℕ) : Row → List Doc → Row
  | r, [] => r
  | r, doc :: docs =>
    queryRow P rho n ((loopRows P rho doc [n] [r] P.iterations [r]).getD 0 []) docs

/-- The topics of a row at or above a probability. -/
def rowTopics (r : Row) (minProb : ℚ) : List (ℕ × ℚ) :=
  ((normRow r).zipIdx.map fun p => (p.2, p.1)).filter fun p => decide (max minProb (1 / 10 ^ 8) ≤ p.2)

theorem length_loopRows (P : Par) (rho : ℚ) (doc : Doc) (ns : List ℕ) (gs : List Row) :
    ∀ (fuel : ℕ) (ts : List Row), ns.length = gs.length → ts.length = gs.length →
      (loopRows P rho doc ns gs fuel ts).length = gs.length := by
  intro fuel
  induction fuel with
  | zero => intro ts _ h; exact h
  | succ f ih =>
    intro ts hn h
    have hr : (roundRows P rho doc ns gs ts).length = gs.length := by
      simp [roundRows, hn, h]
    simp only [loopRows]
    split
    · exact hr
    · exact ih _ hn hr

theorem infer_query (P : Par) (rho : ℚ) {s : St A} (ph : A) (n : ℕ)
    (hrows : s.gamma.length = s.numAuthors)
    (base : St A) (hb : base = addPlaceholder s ph n [])
    (ps : List (ℕ × Doc)) :
    ∀ r : Row, (∀ p ∈ ps, PyDict.get? base.doc2author p.1 = some [ph]) →
      infer P rho { base with gamma := s.gamma ++ [r] } ps
        = (none, { base with gamma := s.gamma ++ [queryRow P rho n r (ps.map Prod.snd)] }) := by
  induction ps with
  | nil => intro r _; rfl
  | cons p ps ih =>
    intro r hp
    have h1 : PyDict.get? base.doc2author p.1 = some [ph] := hp p (by simp)
    have h2 : PyDict.get? base.author2id ph = some s.numAuthors := by rw [hb]; simp [addPlaceholder]
    have h3 : PyDict.get? base.id2author s.numAuthors = some ph := by rw [hb]; simp [addPlaceholder]
    have h4 : PyDict.get? base.author2doc ph = some (queryIdx s n) := by
      rw [hb]; simp [addPlaceholder]
    have h5 : (s.gamma ++ [r])[s.numAuthors]? = some r := by
      rw [← hrows]; simp
    have step : inferDoc P rho { base with gamma := s.gamma ++ [r] } p.1 p.2
        = .ok { base with gamma := s.gamma ++
            [(loopRows P rho p.2 [n] [r] P.iterations [r]).getD 0 []] } := by
      have ha : authorsOf { base with gamma := s.gamma ++ [r] } p.1 = some [s.numAuthors] := by
        simp [authorsOf, h1, h2]
      have hn : [s.numAuthors].mapM (docCount { base with gamma := s.gamma ++ [r] }) = some [n] := by
        simp [docCount, h3, h4, queryIdx]
      have hr : [s.numAuthors].mapM (fun i => (s.gamma ++ [r])[i]?) = some [r] := by
        simp [h5]
      unfold inferDoc
      rw [ha]
      simp only [hn, hr]
      have hl := length_loopRows P rho p.2 [n] [r] P.iterations [r] rfl rfl
      obtain ⟨x, hx⟩ := List.length_eq_one_iff.1 hl
      rw [hx]
      simp only [List.zip_cons_cons, List.zip_nil_right, storeRows]
      congr 2
      rw [← hrows]
      simp
    simp only [infer, step, List.map_cons, queryRow]
    exact ih _ fun q hq => hp q (by simp [hq])

/-- **C93.** `get_new_author_topics` answers from the given documents and a drawn row alone — no author of
the model influences the answer — and leaves the model exactly as it was: tables, counters, corpus and the
topics of every author. -/
theorem C93_query_restores (P : Par) (rho : ℚ) {s : St A} (h : Reach s) (ph : A)
    (hph : ph ∉ PyDict.keys s.author2id) {docs : List Doc} (hd : docs ≠ [])
    (hfresh : ∀ d ∈ PyDict.keys s.doc2author, d < s.totalDocs) (minProb : ℚ) (draw : Row) :
    getNewAuthorTopics P rho s ph docs minProb draw
      = (.ok (rowTopics (queryRow P rho docs.length draw docs) minProb), s) := by
  have hc := h.consistent
  have hlen : ¬ docs.length = 0 := fun h => hd (List.length_eq_zero_iff.1 h)
  have hcon : ¬ s.author2id.contains ph = true := by rw [PyDict.contains_iff]; exact hph
  have hnodup : (queryIdx s docs.length).Nodup :=
    List.Nodup.map (fun a b h => by simpa using h) List.nodup_range
  have hidx : ∀ d ∈ queryIdx s docs.length, d ∉ PyDict.keys s.doc2author := by
    intro d hd hk
    simp only [queryIdx, List.mem_map] at hd
    obtain ⟨x, _, rfl⟩ := hd
    exact absurd (hfresh _ hk) (by omega)
  have hd2a : (addPlaceholder s ph docs.length []).doc2author
      = s.doc2author ++ (queryIdx s docs.length).map fun d => (d, [ph]) :=
    foldl_set_fresh _ _ _ hnodup hidx
  have hget : ∀ p ∈ (queryIdx s docs.length).zip docs,
      PyDict.get? (addPlaceholder s ph docs.length []).doc2author p.1 = some [ph] := by
    intro p hp
    have hp1 : p.1 ∈ queryIdx s docs.length := (List.of_mem_zip (a := p.1) (b := p.2) hp).1
    rw [hd2a, PyDict.get?_append, (PyDict.get?_eq_none_iff _ _).2 (hidx _ hp1), get?_map_pair,
      if_pos hp1]
    rfl
  have hinf := infer_query P rho ph docs.length hc.rows _ rfl ((queryIdx s docs.length).zip docs)
    draw hget
  have hsnd : ((queryIdx s docs.length).zip docs).map Prod.snd = docs := by
    rw [List.map_snd_zip]
    simp [queryIdx]
  rw [hsnd] at hinf
  have hbase : addPlaceholder s ph docs.length draw
      = { addPlaceholder s ph docs.length [] with gamma := s.gamma ++ [draw] } := rfl
  unfold getNewAuthorTopics
  rw [if_neg hlen, if_neg hcon]
  simp only [hbase, hinf]
  have hroll : rollback { addPlaceholder s ph docs.length [] with
      gamma := s.gamma ++ [queryRow P rho docs.length draw docs] } ph (queryIdx s docs.length) = s := by
    unfold rollback
    have e0 : PyDict.getD (addPlaceholder s ph docs.length []).author2id ph 0 = s.numAuthors := by
      simp [addPlaceholder, PyDict.getD]
    have e1 : PyDict.erase (addPlaceholder s ph docs.length []).author2doc ph = s.author2doc :=
      erase_set _ fun hk => hph (hc.known ph hk)
    have e2 : PyDict.erase (addPlaceholder s ph docs.length []).author2id ph = s.author2id :=
      erase_set _ hph
    have e3 : PyDict.erase (addPlaceholder s ph docs.length []).id2author s.numAuthors
        = s.id2author := erase_set _ fun hk => absurd (hc.small _ hk) (lt_irrefl _)
    have e4 : (queryIdx s docs.length).foldl PyDict.erase
        (addPlaceholder s ph docs.length []).doc2author = s.doc2author := by
      rw [hd2a]; exact foldl_erase_fresh _ _ _ hnodup hidx
    simp only [e0, e1, e2, e3, e4, List.dropLast_concat]
    rfl
  rw [hroll]
  refine Prod.ext ?_ rfl
  have e5 : PyDict.get? (addPlaceholder s ph docs.length []).author2id ph = some s.numAuthors := by
    simp [addPlaceholder]
  have e6 : (s.gamma ++ [queryRow P rho docs.length draw docs])[s.numAuthors]?
      = some (queryRow P rho docs.length draw docs) := by
    rw [← hc.rows]; simp
  simp only [getAuthorTopics, e5, e6]
  rfl

/-- **C93.** The query refuses an empty corpus, and refuses to run when an author of the model already has
the placeholder's name; the model is untouched in both cases. -/
theorem C93_query_refusals (P : Par) (rho : ℚ) (s : St A) (ph : A) (docs : List Doc) (minProb : ℚ)
    (draw : Row) (h : docs = [] ∨ ph ∈ PyDict.keys s.author2id) :
    getNewAuthorTopics P rho s ph docs minProb draw = (.error .value, s) := by
  unfold getNewAuthorTopics
  by_cases hd : docs.length = 0
  · rw [if_pos hd]
  · rw [if_neg hd]
    rcases h with h | h
    · exact absurd (by rw [h]; rfl) hd
    · rw [if_pos ((PyDict.contains_iff _ _).2 h)]

/-- **C93.** The document numbers of a model stay below its number of documents when every update's tables
number documents below the number of its documents, or below the new total: the condition of
`C93_query_restores`. -/
theorem C93_document_numbers {s s' : St A} {order : List A → List A} {docs : List Doc}
    {m : PyDict A (List ℕ)} {d2a : Option (PyDict ℕ (List A))} {draw : ℕ → Row} {t : Option (List ℕ)}
    (hp : prepare s order (some docs) (some m) d2a draw = .ok (s', t))
    (hs : ∀ d ∈ PyDict.keys s.doc2author, d < s.totalDocs)
    (hg : ∀ m', d2a = some m' → PyDict.WF m' ∧ ∀ d ∈ PyDict.keys m', d < s.totalDocs + docs.length) :
    ∀ d ∈ PyDict.keys s'.doc2author, d < s'.totalDocs := by
  have key : ∀ m', PyDict.WF m' → (∀ d ∈ PyDict.keys m', d < s.totalDocs + docs.length) →
      s' = (absorb s docs m m' draw).1 → ∀ d ∈ PyDict.keys s'.doc2author, d < s'.totalDocs := by
    intro m' hw hk e d hd
    rw [e, (absorb_counts s docs m m' draw).2.1]
    rw [e, absorb_doc2author, ← PyDict.get?_isSome_iff, get?_foldl_set _ _ hw] at hd
    cases hg' : PyDict.get? m' d with
    | none =>
      rw [hg'] at hd
      have := hs d ((PyDict.get?_isSome_iff _ _).1 hd)
      omega
    | some x => exact hk d ((PyDict.get?_isSome_iff _ _).1 (by rw [hg']; rfl))
  by_cases hlen : docs.length = 0
  · cases d2a <;> simp only [prepare, hlen, if_true] at hp
    all_goals
      injection hp with hp
      injection hp with h1 h2
      rw [← h1]; exact hs
  · cases d2a with
    | none =>
      simp only [prepare, hlen, if_false] at hp
      injection hp with hp
      injection hp with h1 h2
      refine key _ (wf_constructDoc2Author _ _) ?_ h1.symm
      intro d hd
      unfold constructDoc2Author at hd
      rw [keys_map_pair, List.mem_range] at hd
      omega
    | some m' =>
      simp only [prepare, hlen, if_false] at hp
      injection hp with hp
      injection hp with h1 h2
      exact key m' (hg m' rfl).1 (hg m' rfl).2 h1.symm

example : ∀ d ∈ PyDict.keys firstModel.doc2author, d < firstModel.totalDocs := by decide

/-! ### Positive rows -/

/-- A row with one positive entry per topic. -/
def PosRow (K : ℕ) (r : Row) : Prop := r.length = K ∧ ∀ x ∈ r, 0 < x

/-- What the numbers entering inference satisfy: positive prior, exponentials not negative. -/
structure Par.Ok (P : Par) : Prop where
  alpha : ∀ x ∈ P.alpha, 0 < x
  beta : ∀ k w, 0 ≤ P.beta k w
  ee : ∀ r k, 0 ≤ P.ee r k

theorem sum_nonneg' {l : List ℚ} (h : ∀ x ∈ l, 0 ≤ x) : 0 ≤ l.sum := List.sum_nonneg h

theorem phinorm_pos {P : Par} (hP : P.Ok) (rows : List Row) (w : ℕ) : 0 < phinorm P rows w := by
  unfold phinorm
  have : 0 ≤ ((List.range P.alpha.length).map fun k =>
      (rows.map fun r => P.ee r k).sum * P.beta k w).sum := by
    apply sum_nonneg'
    intro x hx
    simp only [List.mem_map] at hx
    obtain ⟨k, _, rfl⟩ := hx
    apply mul_nonneg _ (hP.beta k w)
    apply sum_nonneg'
    intro y hy
    simp only [List.mem_map] at hy
    obtain ⟨r, _, rfl⟩ := hy
    exact hP.ee r k
  have h2 : (0 : ℚ) < 1 / 10 ^ 100 := by positivity
  linarith

theorem getD_pos {K : ℕ} {r : Row} (h : PosRow K r) {k : ℕ} (hk : k < K) : 0 < r.getD k 0 := by
  have hk' : k < r.length := by rw [h.1]; exact hk
  rw [List.getD_eq_getElem _ _ hk']
  exact h.2 _ (List.getElem_mem hk')

theorem newRow_pos {P : Par} (hP : P.Ok) {rho : ℚ} (h0 : 0 ≤ rho) (h1 : rho ≤ 1) {doc : Doc}
    (hdoc : ∀ w ∈ doc, 0 ≤ w.2) (rows : List Row) (n : ℕ) {g : Row}
    (hg : PosRow P.alpha.length g) (t : Row) :
    PosRow P.alpha.length (newRow P rho doc rows n g t) := by
  refine ⟨by simp [newRow], fun x hx => ?_⟩
  simp only [newRow, List.mem_map, List.mem_range] at hx
  obtain ⟨k, hk, rfl⟩ := hx
  have hgk := getD_pos hg hk
  have hak : 0 < P.alpha.getD k 0 := getD_pos ⟨rfl, hP.alpha⟩ hk
  have hs : 0 ≤ (doc.map fun w => w.2 / phinorm P rows w.1 * P.beta k w.1).sum := by
    apply sum_nonneg'
    intro y hy
    simp only [List.mem_map] at hy
    obtain ⟨w, hw, rfl⟩ := hy
    exact mul_nonneg (div_nonneg (hdoc w hw) (phinorm_pos hP _ _).le) (hP.beta _ _)
  have ht : 0 < P.alpha.getD k 0 + n * P.ee t k *
      (doc.map fun w => w.2 / phinorm P rows w.1 * P.beta k w.1).sum := by
    have := mul_nonneg (mul_nonneg (Nat.cast_nonneg (α := ℚ) n) (hP.ee t k)) hs
    linarith
  rcases eq_or_lt_of_le h1 with e | hlt
  · rw [e]; linarith
  · have := mul_pos (sub_pos.2 hlt) hgk
    have := mul_nonneg h0 ht.le
    linarith

theorem roundRows_pos {P : Par} (hP : P.Ok) {rho : ℚ} (h0 : 0 ≤ rho) (h1 : rho ≤ 1) {doc : Doc}
    (hdoc : ∀ w ∈ doc, 0 ≤ w.2) (ns : List ℕ) {gs : List Row}
    (hg : ∀ g ∈ gs, PosRow P.alpha.length g) (ts : List Row) :
    ∀ r ∈ roundRows P rho doc ns gs ts, PosRow P.alpha.length r := by
  intro r hr
  simp only [roundRows, List.mem_map] at hr
  obtain ⟨⟨n, g, t⟩, hp, rfl⟩ := hr
  have h2 := (List.of_mem_zip hp).2
  exact newRow_pos hP h0 h1 hdoc ts n (hg g (List.of_mem_zip h2).1) t

theorem loopRows_pos {P : Par} (hP : P.Ok) {rho : ℚ} (h0 : 0 ≤ rho) (h1 : rho ≤ 1) {doc : Doc}
    (hdoc : ∀ w ∈ doc, 0 ≤ w.2) (ns : List ℕ) {gs : List Row}
    (hg : ∀ g ∈ gs, PosRow P.alpha.length g) :
    ∀ (fuel : ℕ) (ts : List Row), (∀ g ∈ ts, PosRow P.alpha.length g) →
      ∀ r ∈ loopRows P rho doc ns gs fuel ts, PosRow P.alpha.length r := by
  intro fuel
  induction fuel with
  | zero => intro ts ht; exact ht
  | succ f ih =>
    intro ts _
    simp only [loopRows]
    have hr := roundRows_pos hP h0 h1 hdoc ns hg ts
    split
    · exact hr
    · exact ih _ hr

theorem storeRows_pos {K : ℕ} (ps : List (ℕ × Row)) : ∀ g : List Row, (∀ r ∈ g, PosRow K r) →
    (∀ p ∈ ps, PosRow K p.2) → ∀ r ∈ storeRows g ps, PosRow K r := by
  induction ps with
  | nil => intro g h _; exact h
  | cons p ps ih =>
    intro g h hp
    simp only [storeRows]
    refine ih _ ?_ fun q hq => hp q (by simp [hq])
    intro r hr
    rcases List.mem_or_eq_of_mem_set hr with h1 | h1
    · exact h r h1
    · rw [h1]; exact hp p (by simp)

theorem mapM_mem {α β : Type} {f : α → Option β} : ∀ {l : List α} {r : List β}, l.mapM f = some r →
    ∀ y ∈ r, ∃ x ∈ l, f x = some y := by
  intro l
  induction l with
  | nil => intro r h y hy; simp at h; subst h; simp at hy
  | cons a l ih =>
    intro r h y hy
    rw [List.mapM_cons] at h
    cases hfa : f a with
    | none => rw [hfa] at h; cases h
    | some b =>
      cases hl : l.mapM f with
      | none => rw [hfa, hl] at h; cases h
      | some bs =>
        rw [hfa, hl] at h
        have h' : some (b :: bs) = some r := h
        injection h' with h'
        subst h'
        rcases List.mem_cons.1 hy with e | e
        · exact ⟨a, by simp, by rw [e]; exact hfa⟩
        · obtain ⟨x, hx, hx'⟩ := ih hl y e
          exact ⟨x, by simp [hx], hx'⟩

theorem inferDoc_pos {P : Par} (hP : P.Ok) {rho : ℚ} (h0 : 0 ≤ rho) (h1 : rho ≤ 1) {s s' : St A}
    {d : ℕ} {doc : Doc} (hdoc : ∀ w ∈ doc, 0 ≤ w.2)
    (hs : ∀ r ∈ s.gamma, PosRow P.alpha.length r) (h : inferDoc P rho s d doc = .ok s') :
    ∀ r ∈ s'.gamma, PosRow P.alpha.length r := by
  unfold inferDoc at h
  split at h
  · cases h
  · rename_i ids _
    split at h
    · rename_i ns gs _ hgs
      injection h with h
      subst h
      have hg : ∀ g ∈ gs, PosRow P.alpha.length g := by
        intro g hg
        obtain ⟨i, _, hi⟩ := mapM_mem hgs g hg
        exact hs g (List.mem_of_getElem? hi)
      refine storeRows_pos _ _ hs ?_
      intro p hp
      exact loopRows_pos hP h0 h1 hdoc ns hg _ _ hg p.2
        (List.of_mem_zip (a := p.1) (b := p.2) hp).2
    · cases h

/-- **C93.** Training keeps every author's row positive: for a positive prior, learning rates between `0`
and `1` and counts that are not negative, no schedule of training over any documents — stopped by an
exception or not — makes an entry of `gamma` zero or negative, so every author always has a topic
distribution. -/
theorem C93_rows_stay_positive {P : Par} (hP : P.Ok) (ps : List (ℕ × ℚ)) :
    ∀ (s : St A), (∀ p ∈ ps, 0 ≤ p.2 ∧ p.2 ≤ 1) → (∀ doc ∈ s.corpus, ∀ w ∈ doc, 0 ≤ w.2) →
      (∀ r ∈ s.gamma, PosRow P.alpha.length r) →
      ∀ r ∈ (trainPass P s ps).2.gamma, PosRow P.alpha.length r := by
  induction ps with
  | nil => intro s _ _ h; exact h
  | cons p ps ih =>
    intro s hps hc hs
    simp only [trainPass]
    split
    · exact hs
    · rename_i doc hdoc
      split
      · exact hs
      · rename_i s' h
        have hst := sameTables_inferDoc h
        have hcor : s'.corpus = s.corpus := hst.2.2.2.2.2.2.1
        refine ih s' (fun q hq => hps q (by simp [hq])) (by rw [hcor]; exact hc) ?_
        exact inferDoc_pos hP (hps p (by simp)).1 (hps p (by simp)).2
          (hc doc (List.mem_of_getElem? hdoc)) hs h

/-- A parameter set of the example: two topics, constant exponentials. -/
def examplePar : Par :=
  ⟨[1 / 2, 1 / 2], fun k w => if k = w then 1 else 1 / 2, fun _ _ => 1, 2, 1 / 1000⟩

example : examplePar.Ok :=
  ⟨by decide +kernel, fun k w => by unfold examplePar; dsimp only; split <;> norm_num,
    fun _ _ => by simp [examplePar]⟩

example : (trainPass examplePar firstModel [(0, 1 / 2), (1, 1 / 2)]).1 = none ∧
    (trainPass examplePar firstModel [(0, 1 / 2), (1, 1 / 2)]).2.gamma ≠ firstModel.gamma := by
  decide +kernel

/-! ### One round of a document -/

theorem getD_newRow (P : Par) (rho : ℚ) (doc : Doc) (rows : List Row) (n : ℕ) (g t : Row) {k : ℕ}
    (hk : k < P.alpha.length) :
    (newRow P rho doc rows n g t).getD k 0 = (1 - rho) * g.getD k 0 +
      rho * (P.alpha.getD k 0 +
        n * P.ee t k * (doc.map fun w => w.2 / phinorm P rows w.1 * P.beta k w.1).sum) := by
  simp [newRow, hk]

theorem sum_swap {α β : Type} (f : α → β → ℚ) (l : List α) (m : List β) :
    (l.map fun a => (m.map fun b => f a b).sum).sum = (m.map fun b => (l.map fun a => f a b).sum).sum := by
  induction l with
  | nil => simp
  | cons a l ih =>
    simp only [List.map_cons, List.sum_cons, ih]
    rw [← List.sum_map_add]

theorem sum_map_mul_const {α : Type} (f : α → ℚ) (c : ℚ) (l : List α) :
    (l.map fun a => f a * c).sum = (l.map f).sum * c := by
  induction l with
  | nil => simp
  | cons a l ih => simp only [List.map_cons, List.sum_cons, ih]; ring

/-- **C93.** What one round does to the rows of a document's authors.  With rate `0` nothing changes; a
rate `rho` moves each row a fraction `rho` of the way to the row of rate `1`; that row exceeds the prior by
the author's number of documents times a share of the document's counts; and the shares of all authors and
topics add up to the document's counts, up to the `1e-100` in the normaliser: no word is lost and none is
counted twice. -/
theorem C93_document_round {P : Par} (hP : P.Ok) (doc : Doc) (rows : List Row) :
    (∀ n g t k, k < P.alpha.length → (newRow P 0 doc rows n g t).getD k 0 = g.getD k 0) ∧
    (∀ rho n g t k, k < P.alpha.length → (newRow P rho doc rows n g t).getD k 0
      = (1 - rho) * g.getD k 0 + rho * (newRow P 1 doc rows n g t).getD k 0) ∧
    (∀ (n : ℕ) g t k, k < P.alpha.length →
      (newRow P 1 doc rows n g t).getD k 0 - P.alpha.getD k 0
      = n * ((newRow P 1 doc rows 1 g t).getD k 0 - P.alpha.getD k 0)) ∧
    (((rows.map fun t => ((List.range P.alpha.length).map fun k =>
        (newRow P 1 doc rows 1 t t).getD k 0 - P.alpha.getD k 0).sum).sum)
      = (doc.map fun w => w.2 * (1 - 1 / 10 ^ 100 / phinorm P rows w.1)).sum) := by
  refine ⟨fun n g t k hk => ?_, fun rho n g t k hk => ?_, fun n g t k hk => ?_, ?_⟩
  · rw [getD_newRow _ _ _ _ _ _ _ hk]; ring
  · rw [getD_newRow _ _ _ _ _ _ _ hk, getD_newRow _ _ _ _ _ _ _ hk]; ring
  · rw [getD_newRow _ _ _ _ _ _ _ hk, getD_newRow _ _ _ _ _ _ _ hk]; push_cast; ring
  · have h1 : ∀ t : Row, ((List.range P.alpha.length).map fun k =>
        (newRow P 1 doc rows 1 t t).getD k 0 - P.alpha.getD k 0)
        = (List.range P.alpha.length).map fun k =>
          (doc.map fun w => w.2 / phinorm P rows w.1 * (P.ee t k * P.beta k w.1)).sum := by
      intro t
      apply List.map_congr_left
      intro k hk
      rw [getD_newRow _ _ _ _ _ _ _ (List.mem_range.1 hk)]
      have : (doc.map fun w => w.2 / phinorm P rows w.1 * (P.ee t k * P.beta k w.1))
          = doc.map fun w => (w.2 / phinorm P rows w.1 * P.beta k w.1) * P.ee t k :=
        List.map_congr_left fun w _ => by ring
      rw [this, sum_map_mul_const]
      push_cast
      ring
    have h2 : (rows.map fun t => ((List.range P.alpha.length).map fun k =>
        (newRow P 1 doc rows 1 t t).getD k 0 - P.alpha.getD k 0).sum)
        = rows.map fun t => (doc.map fun w => ((List.range P.alpha.length).map fun k =>
          w.2 / phinorm P rows w.1 * (P.ee t k * P.beta k w.1)).sum).sum := by
      apply List.map_congr_left
      intro t _
      rw [h1 t, sum_swap]
    rw [h2, sum_swap]
    congr 1
    apply List.map_congr_left
    intro w _
    have hpos := phinorm_pos hP rows w.1
    rw [sum_swap]
    have h3 : ((List.range P.alpha.length).map fun k => (rows.map fun t =>
        w.2 / phinorm P rows w.1 * (P.ee t k * P.beta k w.1)).sum)
        = (List.range P.alpha.length).map fun k =>
          ((rows.map fun r => P.ee r k).sum * P.beta k w.1) * (w.2 / phinorm P rows w.1) := by
      apply List.map_congr_left
      intro k _
      have : (rows.map fun t => w.2 / phinorm P rows w.1 * (P.ee t k * P.beta k w.1))
          = rows.map fun t => P.ee t k * (P.beta k w.1 * (w.2 / phinorm P rows w.1)) :=
        List.map_congr_left fun t _ => by ring
      rw [this, sum_map_mul_const]
      ring
    rw [h3, sum_map_mul_const]
    have h4 : ((List.range P.alpha.length).map fun k =>
        (rows.map fun r => P.ee r k).sum * P.beta k w.1).sum
        = phinorm P rows w.1 - 1 / 10 ^ 100 := by
      unfold phinorm; ring
    rw [h4]
    field_simp

theorem getElem?_storeRows (ps : List (ℕ × Row)) : ∀ (g : List Row) (i : ℕ),
    i ∉ ps.map Prod.fst → (storeRows g ps)[i]? = g[i]? := by
  induction ps with
  | nil => intro g i _; rfl
  | cons p ps ih =>
    intro g i hi
    simp only [List.map_cons, List.mem_cons, not_or] at hi
    simp only [storeRows]
    rw [ih _ _ hi.2, List.getElem?_set_ne (fun e => hi.1 e.symm)]

theorem getElem?_storeRows_zip (ids : List ℕ) : ∀ (g rs : List Row), ids.Nodup →
    rs.length = ids.length → (∀ i ∈ ids, i < g.length) →
    ∀ j i : ℕ, ids[j]? = some i → (storeRows g (ids.zip rs))[i]? = rs[j]? := by
  induction ids with
  | nil => intro g rs _ _ _ j i h; simp at h
  | cons a ids ih =>
    intro g rs hn hl hlt j i h
    rw [List.nodup_cons] at hn
    cases rs with
    | nil => simp at hl
    | cons r rs =>
      simp only [List.zip_cons_cons, storeRows]
      cases j with
      | zero =>
        simp only [List.getElem?_cons_zero, Option.some.injEq] at h
        subst h
        rw [getElem?_storeRows]
        · simp [hlt a (by simp)]
        · intro hm
          obtain ⟨p, hp, rfl⟩ := List.mem_map.1 hm
          exact hn.1 (List.of_mem_zip (a := p.1) (b := p.2) hp).1
      | succ j =>
        rw [List.getElem?_cons_succ] at h ⊢
        exact ih _ rs hn.2 (by simpa using hl) (fun x hx => by simpa using hlt x (by simp [hx])) j i h

/-- Specification: `ids` are the numbers of all the authors of document `d`, in order. -/
def AuthorIds (s : St A) (d : ℕ) (ids : List ℕ) : Prop :=
  ∃ as, PyDict.get? s.doc2author d = some as ∧ List.Forall₂ (fun a i => PyDict.get? s.author2id a = some i) as ids

/-- Specification: author number `i` has `n` documents. -/
def HasDocs (s : St A) (i n : ℕ) : Prop :=
  ∃ a docs, PyDict.get? s.id2author i = some a ∧ PyDict.get? s.author2doc a = some docs ∧ docs.length = n

theorem mapM_forall₂ {α β : Type} (f : α → Option β) (l : List α) (r : List β) :
    l.mapM f = some r ↔ List.Forall₂ (fun a b => f a = some b) l r := by
  induction l generalizing r with
  | nil =>
    constructor
    · intro h; simp at h; subst h; exact List.Forall₂.nil
    · intro h; cases h; rfl
  | cons a l ih =>
    rw [List.mapM_cons]
    constructor
    · intro h
      cases ha : f a with
      | none => rw [ha] at h; cases h
      | some b =>
        rw [ha] at h
        cases hl : l.mapM f with
        | none => rw [hl] at h; cases h
        | some bs =>
          rw [hl] at h
          injection h with h
          subst h
          exact List.Forall₂.cons ha ((ih bs).1 hl)
    · intro h
      cases h with
      | cons ha hl => rw [ha, (ih _).2 hl]; rfl

theorem authorsOf_iff (s : St A) (d : ℕ) (ids : List ℕ) : authorsOf s d = some ids ↔ AuthorIds s d ids := by
  unfold authorsOf AuthorIds
  cases h : PyDict.get? s.doc2author d with
  | none => simp
  | some as => simp only [mapM_forall₂, Option.some.injEq, exists_eq_left']

theorem docCount_spec (s : St A) (i n : ℕ) (h : docCount s i = some n) : HasDocs s i n := by
  unfold docCount at h
  cases ha : PyDict.get? s.id2author i with
  | none => rw [ha] at h; cases h
  | some a =>
    rw [ha] at h
    simp only at h
    cases hd : PyDict.get? s.author2doc a with
    | none => rw [hd] at h; cases h
    | some docs =>
      rw [hd] at h
      injection h with h
      exact ⟨a, docs, ha, hd, h⟩

/-- **C93.** A document changes the rows of its own authors and of nobody else.  The new rows are those
of some number of rounds, no more than `iterations`, started at the authors' current rows and using each
author's number of documents; fewer rounds only when the last one changed little. -/
theorem C93_document_step {P : Par} {rho : ℚ} {s s' : St A} {d : ℕ} {doc : Doc} {ids : List ℕ}
    (hids' : AuthorIds s d ids) (hn : ids.Nodup) (h : inferDoc P rho s d doc = .ok s') :
    (∀ i, i ∉ ids → s'.gamma[i]? = s.gamma[i]?) ∧
    ∃ (ns : List ℕ) (gs : List Row) (m : ℕ), m ≤ P.iterations ∧
      List.Forall₂ (HasDocs s) ids ns ∧ ids.map (fun i => s.gamma[i]?) = gs.map some ∧
      (∀ j i : ℕ, ids[j]? = some i → s'.gamma[i]? = ((roundRows P rho doc ns gs)^[m] gs)[j]?) ∧
      (m = P.iterations ∨ ∃ l, m = l + 1 ∧ meanDiff ((roundRows P rho doc ns gs)^[m] gs)
        ((roundRows P rho doc ns gs)^[l] gs) < P.threshold) := by
  have hids := (authorsOf_iff s d ids).2 hids'
  have hmap : ∀ {α β : Type} (f : α → Option β) (l : List α) (r : List β), l.mapM f = some r →
      l.map f = r.map some := by
    intro α β f l
    induction l with
    | nil => intro r h; simp at h; subst h; rfl
    | cons a l ih =>
      intro r h
      rw [List.mapM_cons] at h
      cases hfa : f a with
      | none => rw [hfa] at h; cases h
      | some b =>
        cases hl : l.mapM f with
        | none => rw [hfa, hl] at h; cases h
        | some bs =>
          rw [hfa, hl] at h
          have h' : some (b :: bs) = some r := h
          injection h' with h'
          subst h'
          simp [hfa, ih bs hl]
  have hloop : ∀ (ns : List ℕ) (gs : List Row) (fuel : ℕ) (ts : List Row), ∃ m ≤ fuel,
      loopRows P rho doc ns gs fuel ts = (roundRows P rho doc ns gs)^[m] ts ∧
      (m = fuel ∨ ∃ l, m = l + 1 ∧ meanDiff ((roundRows P rho doc ns gs)^[m] ts)
        ((roundRows P rho doc ns gs)^[l] ts) < P.threshold) := by
    intro ns gs fuel
    induction fuel with
    | zero => intro ts; exact ⟨0, le_refl _, rfl, Or.inl rfl⟩
    | succ f ih =>
      intro ts
      simp only [loopRows]
      split
      · rename_i hlt
        exact ⟨1, by omega, rfl, Or.inr ⟨0, rfl, hlt⟩⟩
      · obtain ⟨m, hm, e, hor⟩ := ih (roundRows P rho doc ns gs ts)
        refine ⟨m + 1, by omega, e, ?_⟩
        rcases hor with hor | ⟨l, hl, hlt⟩
        · exact Or.inl (by omega)
        · exact Or.inr ⟨l + 1, by omega, hlt⟩
  unfold inferDoc at h
  rw [hids] at h
  simp only at h
  split at h
  · rename_i ns gs hns hgs
    injection h with h
    subst h
    have hns' := hmap _ _ _ hns
    have hgs' := hmap _ _ _ hgs
    have hl1 : ns.length = ids.length := by
      have := congrArg List.length hns'; simpa using this.symm
    have hl2 : gs.length = ids.length := by
      have := congrArg List.length hgs'; simpa using this.symm
    have hl3 := length_loopRows P rho doc ns gs P.iterations gs (by omega) rfl
    obtain ⟨m, hm, e, hor⟩ := hloop ns gs P.iterations gs
    constructor
    · intro i hi
      exact getElem?_storeRows _ _ _ fun hmem => hi (by
        obtain ⟨p, hp, rfl⟩ := List.mem_map.1 hmem
        exact (List.of_mem_zip (a := p.1) (b := p.2) hp).1)
    · refine ⟨ns, gs, m, hm, ((mapM_forall₂ _ _ _).1 hns).imp (fun i n h => docCount_spec s i n h), hgs', fun j i hj => ?_, hor⟩
      rw [← e]
      refine getElem?_storeRows_zip ids _ _ hn (by omega) ?_ j i hj
      intro x hx
      have : s.gamma[x]? ∈ ids.map (fun i => s.gamma[i]?) := List.mem_map.2 ⟨x, hx, rfl⟩
      rw [hgs'] at this
      obtain ⟨r, _, hr⟩ := List.mem_map.1 this
      exact (List.getElem?_eq_some_iff.1 hr.symm).1
  · cases h

/-! ### The topics of an author -/

/-- **C93.** `get_author_topics` for an author with a positive row: the topics whose share of the row
reaches the requested probability (at least `1e-8`), with these shares, which sum to at most one; and to
exactly one when no topic is dropped.  An unknown author is an error. -/
theorem C93_author_topics {s : St A} {K : ℕ} (hs : ∀ r ∈ s.gamma, PosRow K r) (hK : 0 < K)
    (minProb : ℚ) (a : A) :
    (PyDict.get? s.author2id a = none → getAuthorTopics s a minProb = .error .key) ∧
    ∀ i r, PyDict.get? s.author2id a = some i → s.gamma[i]? = some r →
      ∃ l, getAuthorTopics s a minProb = .ok l ∧
        (∀ k p, (k, p) ∈ l ↔ ∃ g, r[k]? = some g ∧ p = g / r.sum ∧ minProb ≤ p ∧ 1 / 10 ^ 8 ≤ p) ∧
        (l.map Prod.fst).Pairwise (· < ·) ∧
        (l.map Prod.snd).sum ≤ 1 ∧ (l.length = K → (l.map Prod.snd).sum = 1) := by
  constructor
  · intro h; simp [getAuthorTopics, h]
  · intro i r hi hr
    have hrow := hs r (List.mem_of_getElem? hr)
    have hsum : 0 < r.sum := by
      have hne : r ≠ [] := fun e => by rw [e] at hrow; have := hrow.1; simp at this; omega
      exact List.sum_pos r hrow.2 hne
    have htot : (normRow r).sum = 1 := by
      unfold normRow
      have : ∀ (l : List ℚ) (c : ℚ), (l.map (· / c)).sum = l.sum / c := by
        intro l c
        induction l with
        | nil => simp
        | cons x xs ih => simp only [List.map_cons, List.sum_cons, ih]; ring
      rw [this]
      exact div_self hsum.ne'
    have hall : (((normRow r).zipIdx.map fun p => (p.2, p.1)).map Prod.snd).sum = 1 := by
      rw [List.map_map]
      have : (Prod.snd ∘ fun p : ℚ × ℕ => (p.2, p.1)) = Prod.fst := rfl
      rw [this, List.zipIdx_map_fst]
      exact htot
    have hnn : ∀ p ∈ (normRow r).zipIdx.map fun p => (p.2, p.1), 0 ≤ p.2 := by
      intro p hp
      simp only [List.mem_map] at hp
      obtain ⟨⟨x, j⟩, hx, rfl⟩ := hp
      have hx' : x ∈ normRow r := by
        have := List.mem_map_of_mem (f := Prod.fst) hx
        rwa [List.zipIdx_map_fst] at this
      simp only [normRow, List.mem_map] at hx'
      obtain ⟨y, hy, rfl⟩ := hx'
      exact div_nonneg (hrow.2 y hy).le hsum.le
    have hfl : ∀ (l : List (ℕ × ℚ)) (q : ℕ × ℚ → Bool), (∀ p ∈ l, 0 ≤ p.2) →
        ((l.filter q).map Prod.snd).sum ≤ (l.map Prod.snd).sum := by
      intro l q
      induction l with
      | nil => intro _; simp
      | cons x xs ih =>
        intro hx
        have h1 := ih fun p hp => hx p (by simp [hp])
        have h2 := hx x (by simp)
        rw [List.filter_cons]
        split
        · simp only [List.map_cons, List.sum_cons]; linarith
        · simp only [List.map_cons, List.sum_cons]; linarith
    refine ⟨rowTopics r minProb, by simp only [getAuthorTopics, hi, hr]; rfl, fun k p => ?_, ?_, ?_, fun hl => ?_⟩
    · simp only [rowTopics, List.mem_filter, List.mem_map, decide_eq_true_eq, max_le_iff, Prod.mk.injEq]
      constructor
      · rintro ⟨⟨⟨x, j⟩, hx, rfl, rfl⟩, h1, h2⟩
        rw [List.mk_mem_zipIdx_iff_getElem?] at hx
        simp only [normRow, List.getElem?_map, Option.map_eq_some_iff] at hx
        obtain ⟨g, hg, rfl⟩ := hx
        exact ⟨g, hg, rfl, h1, h2⟩
      · rintro ⟨g, hg, rfl, h1, h2⟩
        refine ⟨⟨(g / r.sum, k), ?_, rfl, rfl⟩, h1, h2⟩
        rw [List.mk_mem_zipIdx_iff_getElem?]
        simp [normRow, hg]
    · have hb : (((normRow r).zipIdx.map fun p => (p.2, p.1)).map Prod.fst).Pairwise (· < ·) := by
        rw [List.map_map]
        have : (Prod.fst ∘ fun p : ℚ × ℕ => (p.2, p.1)) = Prod.snd := rfl
        rw [this, List.zipIdx_map_snd]
        exact List.pairwise_lt_range'
      exact hb.sublist (List.Sublist.map _ List.filter_sublist)
    · rw [← hall, rowTopics]; exact hfl _ _ hnn
    · have hfull : ((normRow r).zipIdx.map fun p => (p.2, p.1)).filter
          (fun p => decide (max minProb (1 / 10 ^ 8) ≤ p.2))
          = (normRow r).zipIdx.map fun p => (p.2, p.1) := by
        apply List.Sublist.eq_of_length List.filter_sublist
        refine hl.trans ?_
        simp [normRow, hrow.1]
      rw [rowTopics, hfull]
      exact hall

example : getAuthorTopics firstModel 20 (1 / 10) = .ok [(0, 1 / 2), (1, 1 / 2)] := by decide +kernel

/-! ### The bound on held-out documents -/

/-- **C93 (finding).** Evaluating held-out documents: the authors given for them are not used.  The `bound`
of a chunk with dictionaries computes with the authors of the *training* documents `0, 1, …`, whatever
`doc2author` says. -/
theorem C93_bound_ignores_given_authors (s : St A) (n : ℕ) (m : PyDict A (List ℕ))
    (m₁ m₂ : PyDict ℕ (List A)) :
    boundAuthors s n none (some m) (some m₁) = boundAuthors s n none (some m) (some m₂) ∧
    (∀ l, boundAuthors s n none (some m) (some m₁) = .ok l →
      l.length = n ∧ ∀ d < n, ∃ ids, l[d]? = some ids ∧ AuthorIds s d ids) := by
  simp only [← authorsOf_iff]
  refine ⟨rfl, fun l hl => ?_⟩
  unfold boundAuthors at hl
  simp only at hl
  split at hl
  · cases hl
  · split at hl
    · cases hl
    · rename_i l' hl'
      injection hl with hl
      subst hl
      have hall : ∀ (ds : List ℕ) (r : List (List ℕ)), ds.mapM (authorsOf s) = some r →
          r.length = ds.length ∧ ∀ j (hj : j < ds.length), ∃ ids, r[j]? = some ids ∧
            authorsOf s (ds[j]) = some ids := by
        intro ds
        induction ds with
        | nil => intro r h; simp at h; subst h; simp
        | cons d ds ih =>
          intro r h
          rw [List.mapM_cons] at h
          cases hfa : authorsOf s d with
          | none => rw [hfa] at h; cases h
          | some b =>
            cases hx : ds.mapM (authorsOf s) with
            | none => rw [hfa, hx] at h; cases h
            | some bs =>
              rw [hfa, hx] at h
              have h' : some (b :: bs) = some r := h
              injection h' with h'
              subst h'
              obtain ⟨i1, i2⟩ := ih bs hx
              refine ⟨by simp [i1], fun j hj => ?_⟩
              cases j with
              | zero => exact ⟨b, rfl, hfa⟩
              | succ j => exact i2 j (by simpa using hj)
      obtain ⟨h1, h2⟩ := hall _ _ hl'
      rw [List.length_range] at h1
      refine ⟨h1, fun d hd => ?_⟩
      obtain ⟨ids, e1, e2⟩ := h2 d (by simpa using hd)
      exact ⟨ids, e1, by simpa using e2⟩

/-- The held-out document is said to be by author `20`; the bound is computed with author `10` (id `0`). -/
example : boundAuthors firstModel 1 none (some [(20, [0])]) (some [(0, [20])]) = .ok [[0]] ∧
    PyDict.get? firstModel.author2id 20 = some 1 := by decide

/-- **C93.** On training documents `bound` uses the documents' own authors; it insists on document numbers
or on both tables, and refuses authors it has no documents of. -/
theorem C93_bound_inputs (s : St A) (n : ℕ) :
    boundAuthors s n none none none = .error .value ∧
    (∀ m, boundAuthors s n none (some m) none = .error .value) ∧
    (∀ m, boundAuthors s n none none (some m) = .error .value) ∧
    (∀ m m' a, a ∈ PyDict.keys m → (PyDict.get? s.author2doc a = none ∨
      PyDict.get? s.author2doc a = some []) →
      boundAuthors s n none (some m) (some m') = .error .value) ∧
    (∀ d ds ids l, boundAuthors s (ds.length + 1) (some (d :: ds)) none none = .ok l →
      AuthorIds s d ids → l[0]? = some ids) := by
  simp only [← authorsOf_iff]
  refine ⟨rfl, fun _ => rfl, fun _ => rfl, fun m m' a ha h => ?_, fun d ds ids l h hid => ?_⟩
  · unfold boundAuthors
    simp only
    rw [if_pos]
    rw [List.any_eq_true]
    refine ⟨a, ha, ?_⟩
    rcases h with h | h <;> simp [falsy, h]
  · unfold boundAuthors at h
    simp only [List.take_succ_cons, List.take_length] at h
    rw [List.mapM_cons, hid] at h
    cases hx : ds.mapM (authorsOf s) with
    | none => rw [hx] at h; cases h
    | some bs =>
      rw [hx] at h
      injection h with h
      subst h
      rfl

/-- **C93.** Without a corpus, `update` trains on all documents of the model and changes no table; a model without documents
refuses. -/
theorem C93_continue (s : St A) (order : List A → List A) (a2d : Option (PyDict A (List ℕ)))
    (d2a : Option (PyDict ℕ (List A))) (draw : ℕ → Row) :
    (s.totalDocs ≠ 0 → ∃ l, prepare s order none a2d d2a draw = .ok (s, some l) ∧ l.Pairwise (· < ·) ∧ ∀ d, d ∈ l ↔ d < s.totalDocs) ∧
    (s.totalDocs = 0 → prepare s order none a2d d2a draw = .error .assertion) := by
  constructor
  · intro h
    refine ⟨List.range s.totalDocs, ?_, List.pairwise_lt_range, fun d => List.mem_range⟩
    simp [prepare, Nat.pos_of_ne_zero h]
  · intro h
    simp [prepare, h]

/-- the mean of the differences of the entries of two matrices with `n` columns -/
def meanEntryDiff (n : ℕ) (a b : List Row) : ℚ :=
  (List.zipWith (fun r s => (List.zipWith (fun x y => |x - y|) r s).sum) a b).sum / (a.length * n)

theorem meanDiff_eq (n : ℕ) (a b : List Row) (hab : a.length = b.length) (ha : ∀ r ∈ a, r.length = n)
    (hb : ∀ r ∈ b, r.length = n) : meanDiff a b = meanEntryDiff n a b := by
  unfold meanDiff meanEntryDiff
  have h1 : a.flatten.length = a.length * n := by
    clear hab hb b
    induction a with
    | nil => simp
    | cons r a ih =>
      rw [List.flatten_cons, List.length_append, ih fun x hx => ha x (List.mem_cons_of_mem _ hx), ha r List.mem_cons_self,
        List.length_cons]
      ring
  have h2 : ((a.flatten.zip b.flatten).map fun p => |p.1 - p.2|).sum
      = (List.zipWith (fun r s => (List.zipWith (fun x y => |x - y|) r s).sum) a b).sum := by
    clear h1
    induction a generalizing b with
    | nil => simp
    | cons r a ih =>
      cases b with
      | nil => simp at hab
      | cons s b =>
        have e : r.length = s.length := by rw [ha r List.mem_cons_self, hb s List.mem_cons_self]
        rw [List.flatten_cons, List.flatten_cons, List.zip_append e, List.map_append, List.sum_append,
          ih b (by simpa using hab) (fun x hx => ha x (List.mem_cons_of_mem _ hx)) (fun x hx => hb x (List.mem_cons_of_mem _ hx)),
          List.zipWith_cons_cons, List.sum_cons]
        congr 2
        rw [List.zip, List.map_zipWith]
  rw [h1, h2]
  push_cast
  rfl

/-- **C93.** The rows of a document's authors are computed again and again, and the last rows are those after the first round that
changes the entries by less than `gamma_threshold` on average, or after `iterations` rounds. -/
theorem C93_rounds (P : Par) (rho : ℚ) (doc : Doc) (ns : List ℕ) (gs : List Row) (hn : ns.length = gs.length) (fuel : ℕ)
    (ts : List Row) (ht : ts.length = gs.length) (hr : ∀ r ∈ ts, r.length = P.alpha.length) :
    ∃ n ≤ fuel, loopRows P rho doc ns gs fuel ts = (roundRows P rho doc ns gs)^[n] ts ∧
      (n = fuel ∨ ∃ j, n = j + 1 ∧ meanEntryDiff P.alpha.length ((roundRows P rho doc ns gs)^[j + 1] ts)
        ((roundRows P rho doc ns gs)^[j] ts) < P.threshold) ∧
      ∀ j, j + 1 < n → P.threshold ≤ meanEntryDiff P.alpha.length ((roundRows P rho doc ns gs)^[j + 1] ts)
        ((roundRows P rho doc ns gs)^[j] ts) := by
  induction fuel generalizing ts with
  | zero => exact ⟨0, le_rfl, rfl, .inl rfl, fun j hj => absurd hj (by omega)⟩
  | succ fuel ih =>
    have hl : (roundRows P rho doc ns gs ts).length = gs.length := by simp [roundRows, hn, ht]
    have hrow : ∀ r ∈ roundRows P rho doc ns gs ts, r.length = P.alpha.length := by
      intro r hr
      obtain ⟨p, _, rfl⟩ := List.mem_map.1 hr
      simp [newRow]
    have hm := meanDiff_eq P.alpha.length (roundRows P rho doc ns gs ts) ts (by rw [hl, ht]) hrow hr
    rw [loopRows]
    simp only [hm]
    by_cases hc : meanEntryDiff P.alpha.length (roundRows P rho doc ns gs ts) ts < P.threshold
    · rw [if_pos hc]
      exact ⟨1, by omega, rfl, .inr ⟨0, rfl, hc⟩, fun j hj => absurd hj (by omega)⟩
    · rw [if_neg hc]
      obtain ⟨n, h1, h2, h3, h4⟩ := ih _ hl hrow
      refine ⟨n + 1, by omega, by rw [h2]; rfl, ?_, ?_⟩
      · rcases h3 with h3 | ⟨j, rfl, h3⟩
        · exact .inl (by omega)
        · exact .inr ⟨j + 1, rfl, h3⟩
      · intro j hj
        cases j with
        | zero => exact not_lt.1 hc
        | succ j => exact h4 j (by omega)

end Verif.AuthorTopic
