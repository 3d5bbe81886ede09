import Verif.Formats.MmProps
import Verif.Formats.LineProps
import Mathlib.Data.List.Forall2

/-!
# Reading any Matrix Market or UCI file: properties (C148)

C22 and C25 are about files this library wrote.  Here the file is any text: written by other programs, by hand, or cut
short by a crash.
-/

namespace Verif.Formats
open Verif Text

variable {V : Type}

/-! ## Specification -/

/-- the entries a list of lines holds: for each line the 0-based document number, term and weight -/
def Holds (C : Codec V) (transposed : Bool) (lines : List Str) (entries : List (Int × Int × V)) : Prop :=
  List.Forall₂ (fun l e => scanEntry C transposed l = some e) lines entries

/-- the entries of document `d`, in the order of the file -/
def docOf (entries : List (Int × Int × V)) (d : Int) : List (Int × V) :=
  (entries.filter fun e => decide (e.1 = d)).map Prod.snd

/-- document numbers never decrease, and none is negative -/
def Ascending (entries : List (Int × Int × V)) : Prop :=
  (entries.map Prod.fst).Pairwise (· ≤ ·) ∧ ∀ e ∈ entries, 0 ≤ e.1

/-- the number of the last document with an entry, plus one, or the number in the header if that is greater -/
def docCount (entries : List (Int × Int × V)) (header : Int) : Nat :=
  entries.foldl (fun m e => max m (e.1.toNat + 1)) header.toNat

/-- the documents with their numbers, from 0 on, none left out -/
def documents (entries : List (Int × Int × V)) (n : Nat) : List (Int × List (Int × V)) :=
  (List.range n).map fun d : Nat => ((d : Int), docOf entries d)

/-! ## The loop -/

theorem docOf_append (es fs : List (Int × Int × V)) (d : Int) : docOf (es ++ fs) d = docOf es d ++ docOf fs d := by
  simp [docOf]

theorem docOf_single (e : Int × Int × V) (d : Int) : docOf [e] d = if e.1 = d then [e.2] else [] := by
  by_cases h : e.1 = d <;> simp [docOf, h]

theorem docOf_none (es : List (Int × Int × V)) (d : Int) (h : ∀ e ∈ es, e.1 ≠ d) : docOf es d = [] := by
  simp only [docOf, List.map_eq_nil_iff, List.filter_eq_nil_iff, decide_eq_true_eq]
  exact h

/-- the state of the loop after some entries -/
structure After (es : List (Int × Int × V)) (s : MmR V) : Prop where
  start : s.previd < 0 → es = [] ∧ s.out = [] ∧ s.previd = -1
  le : ∀ e ∈ es, e.1 ≤ s.previd
  last : 0 ≤ s.previd → ∃ e ∈ es, e.1 = s.previd
  doc : 0 ≤ s.previd → s.document = docOf es s.previd
  out : 0 ≤ s.previd → s.out = documents es s.previd.toNat

theorem documents_congr (es fs : List (Int × Int × V)) (n : Nat) (h : ∀ d : Nat, d < n → docOf es d = docOf fs d) :
    documents es n = documents fs n := by
  unfold documents
  apply List.map_congr_left
  intro d hd
  rw [h d (List.mem_range.1 hd)]

theorem documents_empty (es : List (Int × Int × V)) (p : Nat) (k : Nat) (h : ∀ e ∈ es, e.1 < p) :
    documents es (p + k) = documents es p ++ emptyDocs (p : Int) ((p + k : Nat) : Int) := by
  unfold documents emptyDocs
  rw [List.range_add, List.map_append, List.map_map]
  congr 1
  have : (((p + k : Nat) : Int) - (p : Int)).toNat = k := by omega
  rw [this]
  apply List.map_congr_left
  intro d _
  simp only [Function.comp_apply]
  rw [docOf_none]
  · simp
  · intro e he
    have := h e he
    omega

theorem emptyDocs_nil (a b : Int) (h : b ≤ a) : (emptyDocs a b : List (Int × List (Int × V))) = [] := by
  unfold emptyDocs
  have : (b - a).toNat = 0 := by omega
  rw [this]; rfl

theorem close_after {es : List (Int × Int × V)} {s : MmR V} (h : After es s) (n : Int) :
    closeDoc s n = documents es (max n (s.previd + 1)).toNat := by
  unfold closeDoc
  by_cases hp : 0 ≤ s.previd
  · obtain ⟨p, hp'⟩ : ∃ p : Nat, s.previd = p := ⟨s.previd.toNat, by omega⟩
    rw [if_pos hp, h.out hp, h.doc hp, hp']
    have h1 : documents es (p : Int).toNat ++ [((p : Int), docOf es p)] = documents es (p + 1) := by
      unfold documents
      rw [List.range_succ, List.map_append]
      rfl
    rw [h1]
    by_cases hn : n ≤ (p : Int) + 1
    · rw [emptyDocs_nil _ _ hn, List.append_nil]
      congr 1
      omega
    · have h2 := documents_empty es (p + 1) (n.toNat - (p + 1)) (fun e he => by have := h.le e he; omega)
      have h3 : p + 1 + (n.toNat - (p + 1)) = n.toNat := by omega
      have h4 : (max n ((p : Int) + 1)).toNat = n.toNat := by omega
      have h5 : ((n.toNat : Nat) : Int) = n := by omega
      rw [h3, h5] at h2
      rw [h4, h2]
      rfl
  · obtain ⟨h1, h2, h3⟩ := h.start (by omega)
    subst h1
    rw [if_neg hp, h2, h3]
    have h2 := documents_empty ([] : List (Int × Int × V)) 0 n.toNat (by simp)
    have h4 : (max n (-1 + 1)).toNat = n.toNat := by omega
    rw [h4]
    rw [Nat.zero_add] at h2
    rw [h2]
    by_cases hn : 0 ≤ n
    · have h5 : ((n.toNat : Nat) : Int) = n := by omega
      rw [h5]; rfl
    · rw [emptyDocs_nil _ _ (by omega), emptyDocs_nil _ _ (by omega)]; rfl

/-- one line -/
theorem step_after (C : Codec V) (t : Bool) {es : List (Int × Int × V)} {s : MmR V} (h : After es s) {line : Str}
    {e : Int × Int × V} (hl : scanEntry C t line = some e) :
    (e.1 < s.previd ∨ e.1 < 0 → mmReadLine C t s line = none) ∧
    (s.previd ≤ e.1 → 0 ≤ e.1 → ∃ s', mmReadLine C t s line = some s' ∧ s'.previd = e.1 ∧ After (es ++ [e]) s') := by
  obtain ⟨d, x⟩ := e
  have e1 : mmReadLine C t s line = (if d < s.previd then none
    else if d ≠ s.previd then some ⟨closeDoc s d, d, [x]⟩
    else if s.previd < 0 then none
    else some { s with document := s.document ++ [x] }) := by
    unfold mmReadLine
    rw [hl]
  rw [e1]
  constructor
  · rintro (h1 | h1)
    · rw [if_pos h1]
    · by_cases h2 : d < s.previd
      · rw [if_pos h2]
      · rw [if_neg h2]
        simp only at h1
        have h3 : s.previd < 0 := by omega
        have := (h.start h3).2.2
        rw [if_neg (by omega), if_pos h3]
  · intro h1 h2
    simp only at h1 h2
    by_cases hd : d = s.previd
    · rw [if_neg (by omega), if_neg (by simpa using hd), if_neg (by omega)]
      refine ⟨_, rfl, hd.symm, ⟨fun h3 => absurd h3 (by simp only; omega), ?_, ?_, ?_, ?_⟩⟩
      · intro e he
        simp only [List.mem_append, List.mem_singleton] at he
        rcases he with he | rfl
        · exact h.le e he
        · exact Int.le_of_eq hd
      · intro _
        exact ⟨(d, x), by simp, hd⟩
      · intro h3
        simp only at h3 ⊢
        rw [docOf_append, docOf_single, if_pos hd, h.doc h3]
      · intro h3
        simp only at h3 ⊢
        rw [h.out h3]
        apply documents_congr
        intro k hk
        rw [docOf_append, docOf_single, if_neg (by simp only; omega), List.append_nil]
    · rw [if_neg (by omega), if_pos hd]
      refine ⟨_, rfl, rfl, ⟨fun h3 => absurd h3 (by simp only; omega), ?_, ?_, ?_, ?_⟩⟩
      · intro e he
        simp only [List.mem_append, List.mem_singleton] at he
        rcases he with he | rfl
        · have := h.le e he; simp only; omega
        · exact Int.le_refl _
      · intro _
        exact ⟨(d, x), by simp, rfl⟩
      · intro _
        simp only
        rw [docOf_append, docOf_single, if_pos rfl, docOf_none, List.nil_append]
        intro e he
        have := h.le e he
        omega
      · intro _
        simp only
        rw [close_after h]
        have h4 : (max d (s.previd + 1)).toNat = d.toNat := by omega
        rw [h4]
        apply documents_congr
        intro k hk
        rw [docOf_append, docOf_single, if_neg (by simp only; omega), List.append_nil]

theorem after_nil : After ([] : List (Int × Int × V)) ⟨[], -1, []⟩ :=
  ⟨fun _ => ⟨rfl, rfl, rfl⟩, by simp, fun h => absurd h (by simp), fun h => absurd h (by simp), fun h => absurd h (by simp)⟩

/-- the loop: it ends without an exception only on entries in order -/
theorem fold_after (C : Codec V) (t : Bool) : ∀ (lines : List Str) (es : List (Int × Int × V)) (s : MmR V), After es s →
    ∀ s', foldOpt (mmReadLine C t) s lines = some s' → ∃ fs, Holds C t lines fs ∧
      ((s.previd :: fs.map Prod.fst).Pairwise (· ≤ ·)) ∧ (∀ e ∈ fs, 0 ≤ e.1) ∧ After (es ++ fs) s' := by
  intro lines
  induction lines with
  | nil =>
    intro es s h s' hf
    simp only [foldOpt, Option.some.injEq] at hf
    subst hf
    exact ⟨[], List.Forall₂.nil, by simp, by simp, by simpa using h⟩
  | cons line lines ih =>
    intro es s h s' hf
    simp only [foldOpt] at hf
    cases hl : scanEntry C t line with
    | none =>
      have : mmReadLine C t s line = none := by unfold mmReadLine; rw [hl]
      rw [this] at hf
      simp at hf
    | some e =>
      obtain ⟨q1, q2⟩ := step_after C t h hl
      by_cases hb : e.1 < s.previd ∨ e.1 < 0
      · rw [q1 hb] at hf
        simp at hf
      · obtain ⟨s2, e2, e3, h2⟩ := q2 (by omega) (by omega)
        rw [e2] at hf
        simp only at hf
        obtain ⟨fs, f1, f2, f3, f4⟩ := ih _ s2 h2 s' hf
        refine ⟨e :: fs, List.Forall₂.cons hl f1, ?_, ?_, by simpa using f4⟩
        · rw [e3] at f2
          simp only [List.map_cons]
          refine List.pairwise_cons.2 ⟨?_, f2⟩
          intro a ha
          rcases List.mem_cons.1 ha with rfl | ha
          · omega
          · have := (List.pairwise_cons.1 f2).1 a ha
            omega
        · intro a ha
          rcases List.mem_cons.1 ha with rfl | ha
          · omega
          · exact f3 a ha

/-- entries in order are read -/
theorem fold_total (C : Codec V) (t : Bool) : ∀ (lines : List Str) (es fs : List (Int × Int × V)) (s : MmR V), After es s →
    Holds C t lines fs → ((s.previd :: fs.map Prod.fst).Pairwise (· ≤ ·)) → (∀ e ∈ fs, 0 ≤ e.1) →
    ∃ s', foldOpt (mmReadLine C t) s lines = some s' ∧ After (es ++ fs) s' := by
  intro lines
  induction lines with
  | nil =>
    intro es fs s h hh _ _
    cases hh
    exact ⟨s, rfl, by simpa using h⟩
  | cons line lines ih =>
    intro es fs s h hh hp h0
    cases hh with
    | cons hl hr =>
      rename_i e fs
      obtain ⟨s2, e2, e3, h2⟩ := (step_after C t h hl).2 ((List.pairwise_cons.1 hp).1 _ (by simp)) (h0 _ (by simp))
      obtain ⟨s', e4, h4⟩ := ih (es ++ [e]) fs s2 h2 hr (by
        rw [e3]; exact (List.pairwise_cons.1 hp).2) (fun a ha => h0 a (by simp [ha]))
      refine ⟨s', ?_, by simpa using h4⟩
      simp only [foldOpt, e2]
      exact e4

theorem docCount_after {es : List (Int × Int × V)} {s : MmR V} (h : After es s) (hn : ∀ e ∈ es, 0 ≤ e.1) (n : Int) :
    (max n (s.previd + 1)).toNat = docCount es n := by
  have key : ∀ (l : List (Int × Int × V)) (m : Nat), m ≤ l.foldl (fun m e => max m (e.1.toNat + 1)) m ∧
      (∀ e ∈ l, e.1.toNat + 1 ≤ l.foldl (fun m e => max m (e.1.toNat + 1)) m) ∧
      (l.foldl (fun m e => max m (e.1.toNat + 1)) m = m ∨ ∃ e ∈ l, l.foldl (fun m e => max m (e.1.toNat + 1)) m = e.1.toNat + 1) := by
    intro l
    induction l with
    | nil => intro m; exact ⟨Nat.le_refl _, by simp, .inl rfl⟩
    | cons a l ih =>
      intro m
      simp only [List.foldl_cons]
      obtain ⟨i1, i2, i3⟩ := ih (max m (a.1.toNat + 1))
      refine ⟨by omega, ?_, ?_⟩
      · intro e he
        clear i3
        rcases List.mem_cons.1 he with rfl | he
        · omega
        · exact i2 e he
      · rcases i3 with i3 | ⟨e, he, i3⟩
        · by_cases hm : m ≤ a.1.toNat + 1
          · exact .inr ⟨a, by simp, by rw [i3]; omega⟩
          · exact .inl (by rw [i3]; omega)
        · exact .inr ⟨e, by simp [he], i3⟩
  unfold docCount
  obtain ⟨k1, k2, k3⟩ := key es n.toNat
  by_cases hp : 0 ≤ s.previd
  · obtain ⟨e, he, hep⟩ := h.last hp
    have := k2 e he
    rcases k3 with k3 | ⟨e', he', k3⟩
    · omega
    · have := h.le e' he'
      have := hn e' he'
      omega
  · obtain ⟨h1, h2, h3⟩ := h.start (by omega)
    subst h1
    clear k3
    rw [h3]
    simp only [List.foldl_nil]
    omega

/-- **C148** Reading the lines after the header succeeds exactly when every line holds an entry, document numbers never
decrease and none is below 1 in the file.  Then the documents come numbered from 0 without gaps, each with all its entries
in the order of the file; their number is the one in the header, or more if an entry belongs to a later document. -/
theorem C148_read (C : Codec V) (transposed : Bool) (numDocs : Int) (lines : List Str)
    (docs : List (Int × List (Int × V))) :
    mmIterBody C transposed numDocs lines = some docs ↔
      ∃ entries, Holds C transposed lines entries ∧ Ascending entries ∧
        docs = documents entries (docCount entries numDocs) := by
  unfold mmIterBody
  constructor
  · intro h
    rw [Option.map_eq_some_iff] at h
    obtain ⟨s', h1, rfl⟩ := h
    obtain ⟨fs, f1, f2, f3, f4⟩ := fold_after C transposed lines [] _ after_nil s' h1
    rw [List.nil_append] at f4
    refine ⟨fs, f1, ⟨(List.pairwise_cons.1 f2).2, f3⟩, ?_⟩
    rw [close_after f4, docCount_after f4 f3]
  · rintro ⟨es, h1, ⟨h2, h3⟩, rfl⟩
    obtain ⟨s', e1, h4⟩ := fold_total C transposed lines [] es ⟨[], -1, []⟩ after_nil h1 (by
      refine List.pairwise_cons.2 ⟨fun a ha => ?_, h2⟩
      obtain ⟨e, he, rfl⟩ := List.mem_map.1 ha
      have := h3 e he
      simp only
      omega) h3
    rw [List.nil_append] at h4
    rw [e1, Option.map_some, close_after h4, docCount_after h4 h3]

theorem forall₂_append {α β : Type} {R : α → β → Prop} : ∀ {l m : List α} {r : List β}, List.Forall₂ R (l ++ m) r →
    ∃ p q, List.Forall₂ R l p ∧ List.Forall₂ R m q ∧ r = p ++ q := by
  intro l
  induction l with
  | nil => intro m r h; exact ⟨[], r, List.Forall₂.nil, h, rfl⟩
  | cons a l ih =>
    intro m r h
    cases h with
    | cons h1 h2 =>
      obtain ⟨p, q, h3, h4, rfl⟩ := ih h2
      exact ⟨_ :: p, q, List.Forall₂.cons h1 h3, h4, rfl⟩

theorem docCount_append (es fs : List (Int × Int × V)) (n : Int) :
    n.toNat ≤ docCount es n ∧ docCount es n ≤ docCount (es ++ fs) n := by
  have key : ∀ (l : List (Int × Int × V)) (m : Nat), m ≤ l.foldl (fun m e => max m (e.1.toNat + 1)) m := by
    intro l
    induction l with
    | nil => intro m; exact Nat.le_refl _
    | cons a l ih => intro m; simp only [List.foldl_cons]; have := ih (max m (a.1.toNat + 1)); omega
  refine ⟨key _ _, ?_⟩
  unfold docCount
  rw [List.foldl_append]
  exact key _ _

/-- **C148** A file cut short after a whole line is read without complaint: there are as many documents as the header
says, or more; every document is a prefix of the one in the whole file, and so empty if its entries come after the cut. -/
theorem C148_truncated (C : Codec V) (transposed : Bool) (numDocs : Int) (lines rest : List Str)
    (docs : List (Int × List (Int × V))) (h : mmIterBody C transposed numDocs (lines ++ rest) = some docs) :
    ∃ docs', mmIterBody C transposed numDocs lines = some docs' ∧ docs'.length ≤ docs.length ∧
      numDocs ≤ (docs'.length : Int) ∧
      ∀ (k : Nat) (d : Int) (doc' : List (Int × V)), docs'[k]? = some (d, doc') →
        ∃ doc, docs[k]? = some (d, doc) ∧ doc' <+: doc := by
  obtain ⟨es, h1, ⟨h2, h3⟩, rfl⟩ := (C148_read C transposed numDocs (lines ++ rest) docs).1 h
  obtain ⟨fs, gs, f1, f2, rfl⟩ := forall₂_append h1
  obtain ⟨c1, c2⟩ := docCount_append fs gs numDocs
  rw [List.map_append] at h2
  refine ⟨documents fs (docCount fs numDocs), (C148_read C transposed numDocs lines _).2
    ⟨fs, f1, ⟨(List.pairwise_append.1 h2).1, fun e he => h3 e (by simp [he])⟩, rfl⟩, ?_, ?_, ?_⟩
  · simpa [documents] using c2
  · simp only [documents, List.length_map, List.length_range]
    omega
  · intro k d doc' hk
    have hlt : k < docCount fs numDocs := by
      have := (List.getElem?_eq_some_iff.1 hk).1
      simpa [documents] using this
    refine ⟨docOf (fs ++ gs) d, ?_, ?_⟩
    · simp only [documents, List.getElem?_map, List.getElem?_range hlt, Option.map_some, Option.some.injEq,
        Prod.mk.injEq] at hk
      simp only [documents, List.getElem?_map, List.getElem?_range (by omega : k < docCount (fs ++ gs) numDocs),
        Option.map_some]
      rw [← hk.1]
    · simp only [documents, List.getElem?_map, List.getElem?_range hlt, Option.map_some, Option.some.injEq,
        Prod.mk.injEq] at hk
      rw [docOf_append, ← hk.2, ← hk.1]
      exact List.prefix_append _ _

/-- **C148** An empty file, and one with nothing but comments after the first line, is accepted as a corpus without documents. -/
theorem C148_empty (C : Codec V) (transposed : Bool) : mmRead C transposed [] = some [] ∧
    ∀ comments : List Str, (∀ l ∈ comments, l.head? = some '%') → readStats transposed comments = some (0, 0, 0) := by
  constructor
  · have h : mmInit transposed [] = some (0, 0, 0) := rfl
    unfold mmRead
    rw [h]
    rfl
  · intro comments
    induction comments with
    | nil => intro _; rfl
    | cons l ls ih =>
      intro h
      unfold readStats
      rw [if_pos (h l (by simp))]
      exact ih (fun x hx => h x (by simp [hx]))

/-- **C148** The loop of `docbyoffset`: on the lines from the first entry of a document on, it gives all entries of that
document, and reads no further than the next document. -/
theorem C148_at (C : Codec V) (transposed : Bool) (d : Int) (hd : 0 ≤ d) (lines rest : List Str)
    (mine theirs : List (Int × Int × V)) (h1 : Holds C transposed lines mine) (hm : ∀ e ∈ mine, e.1 = d)
    (hne : mine ≠ []) (h2 : Holds C transposed (rest.take 1) theirs) (ht : ∀ e ∈ theirs, d < e.1) :
    docLoop C transposed (-1) [] (lines ++ rest) = some (mine.map Prod.snd) := by
  have hend : ∀ doc, docLoop C transposed d doc rest = some doc := by
    intro doc
    cases rest with
    | nil => rfl
    | cons l ls =>
      simp only [List.take_succ_cons, List.take_zero] at h2
      cases h2 with
      | cons hl hr =>
        rename_i e _
        have he := ht e (by simp)
        obtain ⟨a, b, v⟩ := e
        simp only [docLoop, hl]
        simp only at he
        rw [if_neg (by omega), if_pos (by omega), if_pos hd]
  have hgo : ∀ (ls : List Str) (es : List (Int × Int × V)) (doc : List (Int × V)), Holds C transposed ls es →
      (∀ e ∈ es, e.1 = d) → docLoop C transposed d doc (ls ++ rest) = some (doc ++ es.map Prod.snd) := by
    intro ls es doc h
    induction h generalizing doc with
    | nil => intro _; simpa using hend doc
    | @cons l e ls es hl _ ih =>
      intro he
      have h0 := he e (by simp)
      obtain ⟨a, b, v⟩ := e
      simp only at h0
      subst h0
      simp only [List.cons_append, docLoop, hl]
      rw [if_neg (by omega), if_neg (by simp), ih _ (fun x hx => he x (by simp [hx]))]
      simp
  cases h1 with
  | nil => exact absurd rfl hne
  | @cons l e ls es hl hr =>
    have h0 := hm e (by simp)
    obtain ⟨a, b, v⟩ := e
    simp only at h0
    subst h0
    simp only [List.cons_append, docLoop, hl]
    rw [if_neg (by omega), if_pos (by omega), if_neg (by omega)]
    rw [hgo ls es _ hr (fun x hx => hm x (by simp [hx]))]
    simp

/-! ## Blei's format -/

theorem length_mapOpt {α β : Type} (f : α → Option β) : ∀ (l : List α) (r : List β), mapOpt f l = some r → r.length = l.length := by
  intro l
  induction l with
  | nil => intro r h; simp only [mapOpt, Option.some.injEq] at h; subst h; rfl
  | cons a l ih =>
    intro r h
    simp only [mapOpt, Option.bind_eq_some_iff, Option.map_eq_some_iff] at h
    obtain ⟨b, _, bs, hbs, rfl⟩ := h
    simp [ih bs hbs]

/-- **C148** A line in Blei's format is accepted only with as many entries as it announces; so a line that lost entries
raises. -/
theorem C148_blei (dec : Str → Option V) (line : Str) (doc : List (Int × V)) (h : bleiLine2doc dec line = some doc) :
    ∃ n parts, splitWs uws line = n :: parts ∧ readInt n = some (doc.length : Int) ∧ parts.length = doc.length ∧
      ∀ (line' : Str) (parts' : List Str), splitWs uws line' = n :: parts' → parts'.length < parts.length →
        bleiLine2doc dec line' = none := by
  unfold bleiLine2doc at h
  split at h
  · simp at h
  · rename_i n parts hs
    split at h
    · simp at h
    · rename_i k hk
      split at h
      · simp at h
      · rename_i hn
        have hlen := length_mapOpt _ _ _ h
        refine ⟨n, parts, hs, ?_, hlen.symm, ?_⟩
        · rw [hk, hlen]; simpa using hn
        · intro line' parts' hs' hl
          unfold bleiLine2doc
          rw [hs']
          simp only [hk]
          rw [if_pos]
          intro hk'
          rw [not_not] at hn
          omega

/-! ## Concrete cases -/

/-- two documents with entries, four by the header -/
example : mmIterBody intCodec true 4 ["1 2 5\n".toList, "3 1 7\n".toList, "3 2 -8\n".toList] =
    some [(0, [(1, 5)]), (1, []), (2, [(0, 7), (1, -8)]), (3, [])] := by decide +kernel

/-- the same file without its last line -/
example : mmIterBody intCodec true 4 ["1 2 5\n".toList, "3 1 7\n".toList] =
    some [(0, [(1, 5)]), (1, []), (2, [(0, 7)]), (3, [])] := by decide +kernel

/-- more documents than the header says -/
example : (mmIterBody intCodec true 1 ["1 2 5\n".toList, "3 1 7\n".toList]).map List.length = some 3 := by decide +kernel

/-- document number 0 in the file, and numbers out of order, raise -/
example : mmIterBody intCodec true 1 ["0 2 5\n".toList] = none ∧
    mmIterBody intCodec true 1 ["2 2 5\n".toList, "1 2 5\n".toList] = none := by decide +kernel

example : docLoop intCodec true (-1) [] ["3 1 7\n".toList, "3 2 -8\n".toList, "4 2 1\n".toList] =
    some [(0, 7), (1, -8)] := by decide +kernel

example : bleiLine2doc intCodec.dec "2 3:1 4:5".toList = some [(3, 1), (4, 5)] ∧
    bleiLine2doc intCodec.dec "2 3:1".toList = none := by decide +kernel

end Verif.Formats
