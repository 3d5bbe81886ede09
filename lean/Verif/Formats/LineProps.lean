import Mathlib.Tactic.Common
import Mathlib.Data.List.Basic
import Mathlib.Data.List.Nodup
import Verif.Formats.LineModel
import Verif.Py.Count

/-!
# Line-per-document corpora: properties C23, C24 and C25
-/

namespace Verif.Formats
open Verif Text PyDict

variable {V : Type}

/-! ## Specification -/

/-- a document as the SVMlight and Blei readers return it -/
def readPairs (d : List (Nat × V)) : List (Int × V) := d.map (fun p => ((p.1 : Int), p.2))

/-- a label or word that the text formats can hold: not empty, no whitespace -/
def Word (w : Str) : Prop := w ≠ [] ∧ ∀ c ∈ w, uws c = false

/-- the number type is written without the separators of the SVMlight format -/
def Plain (enc : V → Str) : Prop := ∀ v, ':' ∉ enc v ∧ '#' ∉ enc v

/-- a bag-of-words document: distinct ids of the mapping, positive counts -/
def BowOk (id2word : PyDict Nat Str) (d : List (Nat × Int)) : Prop :=
  (d.map Prod.fst).Nodup ∧ ∀ p ∈ d, p.1 ∈ keys id2word ∧ 0 < p.2

/-- a mapping that the word formats can hold: distinct ids, distinct words, no whitespace in words -/
def VocabOk (id2word : PyDict Nat Str) : Prop :=
  WF id2word ∧ (values id2word).Nodup ∧ ∀ w ∈ values id2word, Word w

/-- the document with natural number counts -/
def natCounts (d : List (Nat × Int)) : List (Nat × Nat) := d.map (fun p => (p.1, p.2.toNat))

/-! ## Lists of results -/

theorem mapOpt_map {α β γ : Type} (f : β → Option γ) (g : α → β) (l : List α) :
    mapOpt f (l.map g) = mapOpt (fun a => f (g a)) l := by
  induction l with
  | nil => rfl
  | cons a as ih => simp [mapOpt, ih]

theorem mapOpt_some {α β : Type} {f : α → Option β} {g : α → β} {l : List α} (h : ∀ a ∈ l, f a = some (g a)) :
    mapOpt f l = some (l.map g) := by
  induction l with
  | nil => rfl
  | cons a as ih =>
    simp [mapOpt, h a (by simp), ih (fun b hb => h b (by simp [hb]))]

theorem mapOpt_eq_some {α β : Type} {f : α → Option β} {l : List α} {r : List β} :
    mapOpt f l = some r ↔ List.Forall₂ (fun a b => f a = some b) l r := by
  induction l generalizing r with
  | nil => cases r <;> simp [mapOpt]
  | cons a as ih =>
    cases r with
    | nil =>
      simp only [mapOpt, List.forall₂_nil_right_iff, reduceCtorEq, iff_false]
      cases f a with
      | none => simp
      | some b => cases mapOpt f as <;> simp
    | cons b bs =>
      rw [List.forall₂_cons, ← ih]
      simp only [mapOpt]
      cases f a with
      | none => simp
      | some b' => cases mapOpt f as <;> simp

theorem mapOpt_isSome_of {α β : Type} {f : α → Option β} {l : List α} (h : ∀ a ∈ l, (f a).isSome) :
    (mapOpt f l).isSome := by
  induction l with
  | nil => rfl
  | cons a as ih =>
    have h1 := h a (by simp)
    have h2 := ih (fun b hb => h b (by simp [hb]))
    obtain ⟨b, hb⟩ := Option.isSome_iff_exists.mp h1
    obtain ⟨bs, hbs⟩ := Option.isSome_iff_exists.mp h2
    simp [mapOpt, hb, hbs]

/-! ## Text lemmas -/

theorem rsplit1_append {c : Char} {a b : Str} (hb : c ∉ b) : rsplit1 c (a ++ c :: b) = some (a, b) := by
  have hn : ∀ s : Str, c ∉ s → rsplit1 c s = none := by
    intro s
    induction s with
    | nil => intro _; rfl
    | cons x xs ih =>
      intro h
      simp only [List.mem_cons, not_or] at h
      simp [rsplit1, ih h.2, Ne.symm h.1]
  induction a with
  | nil => simp [rsplit1, hn b hb]
  | cons x xs ih => simp [rsplit1, ih]

theorem splitWsAux_trailing {ws : Char → Bool} (a t cur : Str) (ht : ∀ c ∈ t, ws c = true) :
    splitWsAux ws cur (a ++ t) = splitWsAux ws cur a := by
  induction a generalizing cur with
  | nil =>
    cases t with
    | nil => rfl
    | cons c t =>
      have := splitWs_all_ws (ws := ws) (t := t) (fun x hx => ht x (by simp [hx]))
      simp only [splitWs] at this
      simp [splitWsAux, ht c (by simp), this]
  | cons x xs ih =>
    simp only [List.cons_append, splitWsAux]
    split
    · split <;> simp [ih]
    · exact ih _

theorem rstrip_suffix (ws : Char → Bool) (s : Str) :
    ∃ t, s = rstrip ws s ++ t ∧ ∀ c ∈ t, ws c = true := by
  refine ⟨(s.reverse.takeWhile ws).reverse, ?_, ?_⟩
  · unfold rstrip
    rw [← List.reverse_append, List.takeWhile_append_dropWhile, List.reverse_reverse]
  · intro c hc
    rw [List.mem_reverse] at hc
    exact List.all_eq_true.mp List.all_takeWhile c hc

theorem splitWs_rstrip (ws : Char → Bool) (s : Str) : splitWs ws (rstrip ws s) = splitWs ws s := by
  obtain ⟨t, ht, hw⟩ := rstrip_suffix ws s
  conv_rhs => rw [ht]
  exact (splitWsAux_trailing _ _ _ hw).symm

theorem splitWs_lstrip (ws : Char → Bool) (s : Str) : splitWs ws (lstrip ws s) = splitWs ws s := by
  induction s with
  | nil => rfl
  | cons c s ih =>
    unfold lstrip
    rw [List.dropWhile_cons]
    split
    · rename_i h; rw [splitWs_skip h]; exact ih
    · rfl

theorem splitWs_strip (ws : Char → Bool) (s : Str) : splitWs ws (strip ws s) = splitWs ws s := by
  rw [strip, splitWs_rstrip, splitWs_lstrip]

theorem mem_joinWith {c x : Char} {ps : List Str} (h : x ∈ joinWith [c] ps) : x = c ∨ ∃ p ∈ ps, x ∈ p := by
  induction ps with
  | nil => simp [joinWith] at h
  | cons p ps ih =>
    cases ps with
    | nil => exact .inr ⟨p, by simp, h⟩
    | cons q qs =>
      simp only [joinWith, List.mem_append, List.mem_singleton] at h
      rcases h with (h | h) | h
      · exact .inr ⟨p, by simp, h⟩
      · exact .inl h
      · rcases ih h with h | ⟨p', hp', h⟩
        · exact .inl h
        · exact .inr ⟨p', by simp [hp'], h⟩

/-! ## Files of lines -/

theorem saveLines_eq (start : Str) (lines : List Str) :
    (saveLines start lines).1 = start ++ lines.flatten ∧
    ∀ (i : Nat) (l : Str), lines[i]? = some l → ∃ o, (saveLines start lines).2[i]? = some o ∧
      ∃ rest, (saveLines start lines).1.drop o = l ++ rest := by
  have key : ∀ (lines : List Str) (f : Str) (offs : List Nat),
      let r := lines.foldl (fun (s : Str × List Nat) l => (s.1 ++ l, s.2 ++ [s.1.length])) (f, offs)
      r.1 = f ++ lines.flatten ∧
      (∀ j, j < offs.length → r.2[j]? = offs[j]?) ∧
      ∀ (i : Nat) (l : Str), lines[i]? = some l → ∃ o, r.2[offs.length + i]? = some o ∧
        ∃ rest, r.1.drop o = l ++ rest := by
    intro lines
    induction lines with
    | nil => intro f offs; simp
    | cons a as ih =>
      intro f offs
      obtain ⟨h1, h2, h3⟩ := ih (f ++ a) (offs ++ [f.length])
      simp only [List.foldl_cons]
      refine ⟨by rw [h1]; simp, ?_, ?_⟩
      · intro j hj
        rw [h2 j (by simp; omega), List.getElem?_append_left hj]
      · intro i l hl
        cases i with
        | zero =>
          simp at hl; subst hl
          refine ⟨f.length, ?_, as.flatten, ?_⟩
          · rw [h2 (offs.length + 0) (by simp), List.getElem?_append_right (by omega)]; simp
          · rw [h1, List.append_assoc, List.drop_left]
        | succ i =>
          simp at hl
          obtain ⟨o, ho, rest, hr⟩ := h3 i l hl
          refine ⟨o, ?_, rest, hr⟩
          rw [← ho]
          congr 1
          simp; omega
  obtain ⟨h1, _, h3⟩ := key lines start []
  refine ⟨h1, ?_⟩
  intro i l hl
  obtain ⟨o, ho, h⟩ := h3 i l hl
  refine ⟨o, ?_, h⟩
  rw [← ho]; simp [saveLines]

/-- `readline` at a recorded offset gives the line written there -/
theorem readline_saved (start : Str) (ls : List Str) (h : ∀ l ∈ ls, '\n' ∉ l) (i : Nat) (l : Str)
    (hl : ls[i]? = some l) :
    ∃ o, (saveLines start (ls.map (fun l => l ++ ['\n']))).2[i]? = some o ∧
      readlineAt (saveLines start (ls.map (fun l => l ++ ['\n']))).1 o = l ++ ['\n'] := by
  obtain ⟨o, ho, rest, hr⟩ := (saveLines_eq start (ls.map (fun l => l ++ ['\n']))).2 i (l ++ ['\n'])
    (by simp [hl])
  refine ⟨o, ho, ?_⟩
  rw [readlineAt, hr, List.append_assoc, List.singleton_append,
    pyLines_cons_line (h l (List.mem_of_getElem? hl))]
  rfl

theorem pyLines_saved (ls : List Str) (h : ∀ l ∈ ls, '\n' ∉ l) :
    pyLines (saveLines [] (ls.map (fun l => l ++ ['\n']))).1 = ls.map (fun l => l ++ ['\n']) := by
  rw [(saveLines_eq [] _).1, List.nil_append]
  exact pyLines_flatten h

/-! ## C23: SVMlight -/

/-- the text of an SVMlight line before the newline -/
def svmText (C : Codec V) (label : Str) (doc : List (Nat × V)) : Str :=
  label ++ ' ' :: joinWith [' '] (doc.map (fun p => showNat (p.1 + 1) ++ ':' :: C.enc p.2))

theorem svmDoc2line_eq (C : Codec V) (label : Str) (doc : List (Nat × V)) :
    svmDoc2line C label doc = svmText C label doc ++ ['\n'] := by
  simp [svmDoc2line, svmText]

theorem showNat_no (n : Nat) {c : Char} (h : ¬ (48 ≤ c.toNat ∧ c.toNat ≤ 57)) : c ∉ showNat n :=
  fun hc => h (showNat_digit n c hc)

theorem svmText_no (C : Codec V) (label : Str) (doc : List (Nat × V)) {x : Char} (hl : x ∉ label)
    (hx : x ≠ ' ') (hc : x ≠ ':') (hd : ¬ (48 ≤ x.toNat ∧ x.toNat ≤ 57)) (hv : ∀ v, x ∉ C.enc v) :
    x ∉ svmText C label doc := by
  intro h
  simp only [svmText, List.mem_append, List.mem_cons] at h
  rcases h with h | h | h
  · exact hl h
  · exact hx h
  · rcases mem_joinWith h with h | ⟨p, hp, h⟩
    · exact hx h
    · obtain ⟨q, _, rfl⟩ := List.mem_map.mp hp
      simp only [List.mem_append, List.mem_cons] at h
      rcases h with h | h | h
      · exact showNat_no _ hd h
      · exact hc h
      · exact hv _ h

theorem svmField_eq (C : Codec V) (hC : Plain C.enc) (p : Nat × V) :
    svmField C (showNat (p.1 + 1) ++ ':' :: C.enc p.2) = some (some ((p.1 : Int), p.2)) := by
  have hq : showNat (p.1 + 1) ≠ ['q', 'i', 'd'] := by
    intro h
    have := showNat_digit (p.1 + 1) 'q' (by rw [h]; simp)
    simp at this
  simp only [svmField, rsplit1_append (hC p.2).1, hq, if_false, readInt_showNat, C.dec_enc]
  simp

theorem field_word (C : Codec V) (n : Nat) (v : V) : Word (showNat n ++ ':' :: C.enc v) := by
  refine ⟨by simp, ?_⟩
  intro c hc
  simp only [List.mem_append, List.mem_cons] at hc
  rcases hc with hc | rfl | hc
  · exact not_ws_of_digit (showNat_digit _ _ hc)
  · decide
  · exact C.enc_no_ws _ c hc

theorem svmParse (C : Codec V) (hC : Plain C.enc) (label : Str) (hl : Word label) (doc : List (Nat × V)) (line : Str)
    (hline : cutComment line = svmText C label doc) :
    svmLine2doc C line = some (some (readPairs doc, label)) := by
  have hs : splitWs uws (strip uws (cutComment line))
      = label :: doc.map (fun p => showNat (p.1 + 1) ++ ':' :: C.enc p.2) := by
    rw [splitWs_strip, hline, svmText, splitWs_cons_word hl.1 hl.2 (by decide)]
    congr 1
    have := splitWs_joinWith (ws := uws) (sep := ' ') (by decide)
      (ps := doc.map (fun p => showNat (p.1 + 1) ++ ':' :: C.enc p.2))
      (by
        intro p hp
        obtain ⟨q, _, rfl⟩ := List.mem_map.mp hp
        exact field_word C _ _) (t := []) (by simp)
    simpa using this
  simp only [svmLine2doc, hs, mapOpt_map]
  rw [mapOpt_some (g := fun p => some ((p.1 : Int), p.2)) (fun p _ => svmField_eq C hC p)]
  simp [readPairs, List.filterMap_map, Function.comp_def]

/-- **C23**: `line2doc(doc2line(doc, label))` is the document and its label -/
theorem C23_roundtrip (C : Codec V) (hC : Plain C.enc) (label : Str) (hl : Word label) (hh : '#' ∉ label)
    (doc : List (Nat × V)) :
    svmLine2doc C (svmDoc2line C label doc) = some (some (readPairs doc, label)) := by
  apply svmParse C hC label hl doc
  rw [svmDoc2line_eq, cutComment, if_neg, List.dropLast_concat]
  simp only [List.mem_append, List.mem_singleton, not_or]
  exact ⟨svmText_no C label doc hh (by decide) (by decide) (by decide) (fun v => (hC v).2), by decide⟩

/-- **C23**: a comment after the document changes nothing -/
theorem C23_comment (C : Codec V) (hC : Plain C.enc) (label : Str) (hl : Word label) (hh : '#' ∉ label)
    (doc : List (Nat × V)) (comment : Str) :
    svmLine2doc C ((svmDoc2line C label doc).dropLast ++ '#' :: comment)
      = some (some (readPairs doc, label)) := by
  apply svmParse C hC label hl doc
  have hno := svmText_no C label doc hh (by decide) (by decide) (by decide) (fun v => (hC v).2)
  rw [svmDoc2line_eq, List.dropLast_concat, cutComment, if_pos (by simp)]
  rw [List.takeWhile_append_of_pos]
  · simp
  · intro c hc
    simp only [ne_eq, decide_not, Bool.not_eq_eq_eq_not, Bool.not_true, decide_eq_false_iff_not]
    rintro rfl
    exact hno hc

/-- **C23**, the defect: a last line without a newline is read as if its last character were the newline,
so that character is lost -/
theorem C23_last_char_lost (C : Codec V) (text : Str) (ht : '#' ∉ text) (c : Char) (hc : c ≠ '#') :
    svmLine2doc C (text ++ [c]) = svmLine2doc C (text ++ ['\n']) := by
  have h : ∀ x : Char, x ≠ '#' → cutComment (text ++ [x]) = text := by
    intro x hx
    rw [cutComment, if_neg, List.dropLast_concat]
    simp only [List.mem_append, List.mem_singleton, not_or]
    exact ⟨ht, Ne.symm hx⟩
  simp only [svmLine2doc, h c hc, h '\n' (by decide)]

-- the last line "1 3:25" of a file without a final newline is read as 3:2
example : svmLine2doc intCodec ['1', ' ', '3', ':', '2', '5'] = some (some ([(2, 2)], ['1'])) ∧
    svmLine2doc intCodec ['1', ' ', '3', ':', '2', '5', '\n'] = some (some ([(2, 25)], ['1'])) := by decide

/-- **C23**: for a saved corpus, iteration gives all documents and labels, `len` is their number, and the
offsets give random access -/
theorem C23_corpus (C : Codec V) (hC : Plain C.enc) (labels : Option (List Str)) (corpus : List (List (Nat × V)))
    (hl : ∀ ls, labels = some ls → ∀ l ∈ ls, Word l ∧ '#' ∉ l) {file : Str} {offs : List Nat}
    (h : svmSave C labels corpus = some (file, offs)) :
    svmIter C file = some (corpus.map readPairs,
      (if labels.getD [] = [] then corpus.map (fun _ => ['0']) else (labels.getD []).take corpus.length),
      corpus.length) ∧
    ∀ (i : Nat) (d : List (Nat × V)), corpus[i]? = some d → ∃ o, offs[i]? = some o ∧ svmDocAt C file o = some (readPairs d) := by
  simp only [svmSave, Option.map_eq_some_iff] at h
  obtain ⟨lines, hlines, hsave⟩ := h
  rw [mapOpt_eq_some] at hlines
  -- the labels used
  have huse : ∃ used : List Str, used.length = corpus.length ∧
      (∀ l ∈ used, Word l ∧ '#' ∉ l) ∧
      used = (if labels.getD [] = [] then corpus.map (fun _ => ['0']) else (labels.getD []).take corpus.length) ∧
      lines = (corpus.zip used).map (fun p => svmText C p.2 p.1 ++ ['\n']) := by
    refine ⟨_, ?_, ?_, rfl, ?_⟩
    · split
      · simp
      · rename_i hne
        rw [List.length_take]
        apply Nat.min_eq_left
        by_contra hlt
        have hlt : (labels.getD []).length < corpus.length := by omega
        obtain ⟨d, hd⟩ : ∃ d, corpus[(labels.getD []).length]? = some d :=
          ⟨corpus[(labels.getD []).length], by simp [hlt]⟩
        have hz : (corpus.zipIdx)[(labels.getD []).length]? = some (d, (labels.getD []).length) := by
          simp [List.getElem?_zipIdx, hd]
        have hlen := hlines.length_eq
        have hi : (labels.getD []).length < lines.length := by
          rw [← hlen]; simpa using hlt
        have := List.Forall₂.get hlines (by simpa using hlt) hi
        have hg : corpus.zipIdx.get ⟨(labels.getD []).length, by simpa using hlt⟩ = (d, (labels.getD []).length) := by
          have := List.getElem?_eq_some_iff.mp hz
          obtain ⟨_, e⟩ := this
          simpa using e
        rw [hg] at this
        simp [hne] at this
    · intro l hm
      split at hm
      · simp only [List.mem_map] at hm
        obtain ⟨_, _, rfl⟩ := hm
        exact ⟨⟨by simp, by decide⟩, by decide⟩
      · have := List.mem_of_mem_take hm
        cases labels with
        | none => simp at this
        | some ls => exact hl ls rfl l (by simpa using this)
    · clear hsave hl
      apply List.ext_getElem?
      intro i
      by_cases hi : i < corpus.length
      · have hlen := hlines.length_eq
        have hi' : i < lines.length := by rw [← hlen]; simpa using hi
        have hf := List.Forall₂.get hlines (i := i) (by simpa using hi) hi'
        have hd : corpus[i]? = some corpus[i] := by simp [hi]
        simp only [List.get_eq_getElem, List.getElem_zipIdx, Nat.zero_add] at hf
        split at hf
        · rename_i hnil
          simp only [Option.map_some, Option.some.injEq] at hf
          rw [List.getElem?_eq_getElem hi', ← hf]
          simp [hnil, List.getElem?_zip_eq_some, hd, svmDoc2line_eq, hi, List.zip_map_right]
        · rename_i hne
          rw [Option.map_eq_some_iff] at hf
          obtain ⟨l, hl, hf⟩ := hf
          rw [List.getElem?_eq_getElem hi', ← hf]
          simp only [hne, if_false]
          have : (corpus.zip ((labels.getD []).take corpus.length))[i]? = some (corpus[i], l) := by
            rw [List.getElem?_zip_eq_some]
            refine ⟨hd, ?_⟩
            rw [List.getElem?_take, if_pos hi, hl]
          rw [List.getElem?_map, this, svmDoc2line_eq]
          rfl
      · have hlen := hlines.length_eq
        simp only [List.length_zipIdx] at hlen
        rw [List.getElem?_eq_none (by omega), eq_comm, List.getElem?_eq_none]
        simp only [List.length_map, List.length_zip]
        omega
  obtain ⟨used, hlen, hok, hdef, hlin⟩ := huse
  rw [← hdef]
  have hmap : lines = ((corpus.zip used).map (fun p => svmText C p.2 p.1)).map (fun l => l ++ ['\n']) := by
    rw [hlin]; simp
  have hnl : ∀ l ∈ (corpus.zip used).map (fun p => svmText C p.2 p.1), '\n' ∉ l := by
    intro l hm
    obtain ⟨p, hp, rfl⟩ := List.mem_map.mp hm
    have := hok p.2 (List.of_mem_zip hp).2
    apply svmText_no C _ _ _ (by decide) (by decide) (by decide)
    · intro v hv; have := C.enc_no_ws v _ hv; exact absurd this (by decide)
    · intro hv; have := this.1.2 _ hv; exact absurd this (by decide)
  have hread : ∀ p ∈ corpus.zip used, svmLine2doc C (svmText C p.2 p.1 ++ ['\n']) = some (some (readPairs p.1, p.2)) := by
    intro p hp
    have := hok p.2 (List.of_mem_zip hp).2
    rw [← svmDoc2line_eq]
    exact C23_roundtrip C hC p.2 this.1 this.2 p.1
  have hfile : file = (saveLines [] lines).1 := by rw [hsave]
  have hoffs : offs = (saveLines [] lines).2 := by rw [hsave]
  refine ⟨?_, ?_⟩
  · have hp : pyLines file = (corpus.zip used).map (fun p => svmText C p.2 p.1 ++ ['\n']) := by
      rw [hfile, hmap, pyLines_saved _ hnl]; simp
    rw [svmIter, hp, mapOpt_map, mapOpt_some hread]
    simp only [Option.map_some, List.filterMap_map, Function.comp_def, id, List.map_map, List.length_map, List.length_zip, hlen, Nat.min_self]
    congr 1
    have e1 : (corpus.zip used).map (fun p => readPairs p.1) = corpus.map readPairs := by
      have := List.map_fst_zip (l₁ := corpus) (l₂ := used) (by omega)
      conv_rhs => rw [← this, List.map_map]
      rfl
    have e2 : (corpus.zip used).map (fun p => p.2) = used := List.map_snd_zip (by omega)
    rw [← e1]
    simp [List.filterMap_eq_map, Function.comp_def, e2]
  · intro i d hd
    have hi : i < used.length := by
      rw [hlen]; exact (List.getElem?_eq_some_iff.mp hd).1
    have hz : (corpus.zip used)[i]? = some (d, used[i]) := by
      rw [List.getElem?_zip_eq_some]; exact ⟨hd, by simp [hi]⟩
    obtain ⟨o, ho, hr⟩ := readline_saved [] ((corpus.zip used).map (fun p => svmText C p.2 p.1)) hnl i
      (svmText C used[i] d) (by simp [hz])
    rw [← hmap, ← hfile] at hr
    rw [← hmap, ← hoffs] at ho
    refine ⟨o, ho, ?_⟩
    rw [svmDocAt, hr, hread (d, used[i]) (List.mem_of_getElem? hz)]

/-- **C23**, the defect in `len`: after a full iteration, `len(corpus)` counts comment lines too -/
theorem C23_len_counts_comments :
    svmIter intCodec ['#', 'x', '\n', '1', ' ', '3', ':', '2', '\n'] = some ([[(2, 2)]], [['1']], 2) := by
  decide

example : svmSave intCodec (some [['1'], ['-', '1']]) [[(0, 5), (7, -3)], []]
    = some ("1 1:5 8:-3\n-1 \n".toList, [0, 11]) ∧ Word ['-', '1'] ∧ '#' ∉ ['-', '1'] := by
  refine ⟨by decide +kernel, ⟨by decide, by decide⟩, by decide⟩

theorem intCodec_plain : Plain intCodec.enc := by
  intro v
  cases v with
  | ofNat n => exact ⟨showNat_no n (by decide), showNat_no n (by decide)⟩
  | negSucc n =>
    constructor
    · intro h
      rcases List.mem_cons.mp h with h | h
      · exact absurd h (by decide)
      · exact showNat_no (n + 1) (by decide) h
    · intro h
      rcases List.mem_cons.mp h with h | h
      · exact absurd h (by decide)
      · exact showNat_no (n + 1) (by decide) h

/-! ## C24: Blei's LDA-C -/

/-- the text of a Blei line before the newline -/
def bleiText (encG : V → Str) (big : V → Bool) (doc : List (Nat × V)) : Str :=
  showNat doc.length ++ ' ' :: joinWith [' ']
    ((doc.filter (fun p => big p.2)).map (fun p => showNat p.1 ++ ':' :: encG p.2))

/-- `"%g"` keeps this value: what it prints reads back as the value, and is a word without a colon -/
def PrintsExactly (encG : V → Str) (dec : Str → Option V) (v : V) : Prop :=
  dec (encG v) = some v ∧ ∀ c ∈ encG v, uws c = false ∧ c ≠ ':'

theorem bleiLine_eq (encG : V → Str) (big : V → Bool) (doc : List (Nat × V)) :
    bleiLine encG big doc = bleiText encG big doc ++ ['\n'] := by simp [bleiLine, bleiText]

theorem bleiSplit (encG : V → Str) (dec : Str → Option V) (big : V → Bool) (doc : List (Nat × V))
    (hp : ∀ p ∈ doc, PrintsExactly encG dec p.2) :
    splitWs uws (bleiLine encG big doc)
      = showNat doc.length :: (doc.filter (fun p => big p.2)).map (fun p => showNat p.1 ++ ':' :: encG p.2) := by
  rw [bleiLine, splitWs_cons_word (showNat_ne_nil _)
    (fun c hc => not_ws_of_digit (showNat_digit _ c hc)) (by decide)]
  congr 1
  apply splitWs_joinWith (by decide)
  · intro p hm
    obtain ⟨q, hq, rfl⟩ := List.mem_map.mp hm
    refine ⟨by simp, ?_⟩
    intro c hc
    simp only [List.mem_append, List.mem_cons] at hc
    rcases hc with hc | rfl | hc
    · exact not_ws_of_digit (showNat_digit _ _ hc)
    · decide
    · exact ((hp q (List.mem_of_mem_filter hq)).2 c hc).1
  · intro c hc; simp at hc; rw [hc]; decide

/-- **C24**: the line written for a document without near-zero entries, whose weights `"%g"` prints
exactly, reads back as the document -/
theorem C24_roundtrip (encG : V → Str) (dec : Str → Option V) (big : V → Bool) (doc : List (Nat × V))
    (hp : ∀ p ∈ doc, PrintsExactly encG dec p.2) (hb : ∀ p ∈ doc, big p.2 = true) :
    bleiLine2doc dec (bleiLine encG big doc) = some (readPairs doc) := by
  have hf : doc.filter (fun p => big p.2) = doc := List.filter_eq_self.mpr hb
  simp only [bleiLine2doc, bleiSplit encG dec big doc hp, hf, readInt_showNat, List.length_map]
  rw [if_neg (by simp), mapOpt_map]
  rw [mapOpt_some (g := fun p => ((p.1 : Int), p.2))]
  · rfl
  · intro p hm
    obtain ⟨h1, h2⟩ := hp p hm
    simp only [bleiField, rsplit1_append (fun h => (h2 _ h).2 rfl), readInt_showNat, h1]

/-- **C24**, the defect: a document with a near-zero entry is written as a line that cannot be read -/
theorem C24_near_zero_unreadable (encG : V → Str) (dec : Str → Option V) (big : V → Bool)
    (doc : List (Nat × V)) (hp : ∀ p ∈ doc, PrintsExactly encG dec p.2) (hb : ∃ p ∈ doc, big p.2 = false) :
    bleiLine2doc dec (bleiLine encG big doc) = none := by
  simp only [bleiLine2doc, bleiSplit encG dec big doc hp, readInt_showNat, List.length_map]
  rw [if_pos]
  have : (doc.filter (fun p => big p.2)).length < doc.length := by
    obtain ⟨p, hm, hb⟩ := hb
    exact List.length_filter_lt_length_iff_exists.mpr ⟨p, hm, by simp [hb]⟩
  omega

/-- **C24**: a saved corpus of such documents comes back by iteration and by offset -/
theorem C24_corpus (encG : V → Str) (dec : Str → Option V) (big : V → Bool) (corpus : List (List (Nat × V)))
    (hp : ∀ d ∈ corpus, ∀ p ∈ d, PrintsExactly encG dec p.2) (hb : ∀ d ∈ corpus, ∀ p ∈ d, big p.2 = true) :
    bleiIter dec (bleiSave encG big corpus).1 = some (corpus.map readPairs) ∧
    ∀ (i : Nat) (d : List (Nat × V)), corpus[i]? = some d → ∃ o, (bleiSave encG big corpus).2[i]? = some o ∧
      bleiDocAt dec (bleiSave encG big corpus).1 o = some (readPairs d) := by
  have hnl : ∀ l ∈ corpus.map (bleiText encG big), '\n' ∉ l := by
    intro l hm
    obtain ⟨d, hd, rfl⟩ := List.mem_map.mp hm
    intro h
    simp only [bleiText, List.mem_append, List.mem_cons] at h
    rcases h with h | h | h
    · exact showNat_no _ (by decide) h
    · exact absurd h (by decide)
    · rcases mem_joinWith h with h | ⟨t, ht, h⟩
      · exact absurd h (by decide)
      · obtain ⟨q, hq, rfl⟩ := List.mem_map.mp ht
        simp only [List.mem_append, List.mem_cons] at h
        rcases h with h | h | h
        · exact showNat_no _ (by decide) h
        · exact absurd h (by decide)
        · have := ((hp d hd q (List.mem_of_mem_filter hq)).2 _ h).1
          exact absurd this (by decide)
  have hmap : corpus.map (bleiLine encG big) = (corpus.map (bleiText encG big)).map (fun l => l ++ ['\n']) := by
    rw [List.map_map]; exact List.map_congr_left (fun d _ => bleiLine_eq encG big d)
  refine ⟨?_, ?_⟩
  · rw [bleiIter, bleiSave, hmap, pyLines_saved _ hnl, ← hmap, mapOpt_map]
    exact mapOpt_some (fun d hd => C24_roundtrip encG dec big d (hp d hd) (hb d hd))
  · intro i d hd
    obtain ⟨o, ho, hr⟩ := readline_saved [] _ hnl i (bleiText encG big d) (by simp [hd])
    rw [← hmap] at ho hr
    have hm := List.mem_of_getElem? hd
    refine ⟨o, ho, ?_⟩
    rw [bleiDocAt]
    unfold bleiSave
    rw [hr, ← bleiLine_eq]
    exact C24_roundtrip encG dec big d (hp d hm) (hb d hm)

theorem mem_le_foldl_max (l : List Nat) (a : Nat) : (∀ x ∈ l, x ≤ l.foldl max a) ∧ a ≤ l.foldl max a := by
  induction l generalizing a with
  | nil => simp
  | cons b l ih =>
    obtain ⟨h1, h2⟩ := ih (max a b)
    refine ⟨?_, ?_⟩
    · intro x hx
      rcases List.mem_cons.mp hx with rfl | hx
      · simp only [List.foldl_cons]; omega
      · exact h1 x hx
    · simp only [List.foldl_cons]; omega

/-- **C24**: the vocabulary written beside the corpus reads back with every word at its id; ids without a
word are `---` -/
theorem C24_vocab (id2word : PyDict Nat Str) (hw : ∀ w ∈ values id2word, Word w) (i : Nat) :
    get? (bleiReadVocab (bleiVocab id2word)) i =
      if i ∈ keys id2word then get? id2word i
      else if ∃ k ∈ keys id2word, i < k then some ['-', '-', '-'] else none := by
  obtain ⟨n, hn, hk⟩ : ∃ n, bleiVocab id2word
      = ((List.range n).map (fun i => getD id2word i ['-', '-', '-'] ++ ['\n'])).flatten ∧
      ∀ i, i < n ↔ ∃ k ∈ keys id2word, i ≤ k := by
    refine ⟨match keys id2word with
      | [] => 0
      | k :: ks => 1 + ks.foldl max k, rfl, ?_⟩
    intro i
    cases hks : keys id2word with
    | nil => simp
    | cons k ks =>
      have := mem_le_foldl_max ks k
      have hmem : ∀ (l : List Nat) (a : Nat), l.foldl max a = a ∨ l.foldl max a ∈ l := by
        intro l
        induction l with
        | nil => intro a; simp
        | cons b l ih =>
          intro a
          simp only [List.foldl_cons, List.mem_cons]
          rcases ih (max a b) with h | h
          · rw [h]; omega
          · exact .inr (.inr h)
      constructor
      · intro h
        rcases hmem ks k with h' | h'
        · exact ⟨k, by simp, by simp only at h; omega⟩
        · exact ⟨_, List.mem_cons_of_mem _ h', by simp only at h; omega⟩
      · rintro ⟨x, hx, h⟩
        simp only
        rcases List.mem_cons.mp hx with rfl | hx
        · omega
        · have := this.1 x hx; omega
  have hword : ∀ i, Word (getD id2word i ['-', '-', '-']) := by
    intro i
    unfold getD
    cases h : get? id2word i with
    | none => exact ⟨by simp, by decide⟩
    | some w => exact hw w (List.mem_map.mpr ⟨_, mem_of_get? h, rfl⟩)
  have hlines : pyLines (bleiVocab id2word) = (List.range n).map (fun i => getD id2word i ['-', '-', '-'] ++ ['\n']) := by
    have := pyLines_flatten (ls := (List.range n).map (fun i => getD id2word i ['-', '-', '-'])) (by
      intro l hl
      obtain ⟨j, _, rfl⟩ := List.mem_map.mp hl
      intro h
      have := (hword j).2 _ h
      exact absurd this (by decide))
    rw [List.map_map] at this
    rw [hn]; exact this
  have hread : bleiReadVocab (bleiVocab id2word)
      = (List.range n).map (fun i => (i, getD id2word i ['-', '-', '-'])) := by
    rw [bleiReadVocab, hlines]
    apply List.ext_getElem?
    intro j
    simp only [List.getElem?_map, List.getElem?_zipIdx, List.map_map]
    by_cases hj : j < n
    · simp only [List.getElem?_range hj, Option.map_some, Function.comp_apply, Nat.zero_add]
      rw [rstrip_append_ws (by decide), rstrip_of_not_ws (hword j).2]
    · have : (List.range n)[j]? = none := by simp; omega
      simp [this]
  have hget : ∀ (l : List Nat), get? (l.map (fun i => (i, getD id2word i ['-', '-', '-']))) i
      = if i ∈ l then some (getD id2word i ['-', '-', '-']) else none := by
    intro l
    induction l with
    | nil => simp
    | cons a l ih =>
      rw [List.map_cons, get?_cons, ih]
      by_cases h : a = i
      · simp [h]
      · simp [h, Ne.symm h]
  have hm : i ∈ List.range n ↔ ∃ k ∈ keys id2word, i ≤ k := by rw [List.mem_range, hk]
  rw [hread, hget, if_congr hm rfl rfl]
  by_cases hi : i ∈ keys id2word
  · rw [if_pos ⟨i, hi, le_refl i⟩, if_pos hi, get?_eq_getD_of_mem hi]
  · rw [if_neg hi, getD_of_not_mem hi]
    apply if_congr _ rfl rfl
    constructor
    · rintro ⟨k, hk, h⟩
      exact ⟨k, hk, lt_of_le_of_ne h (fun e => hi (e ▸ hk))⟩
    · rintro ⟨k, hk, h⟩
      exact ⟨k, hk, le_of_lt h⟩

example : bleiReadVocab (bleiVocab [(2, ['c']), (0, ['a'])]) = [(0, ['a']), (1, ['-', '-', '-']), (2, ['c'])] := by
  decide

-- near-zero entries (here: zero) make the line unreadable; other documents round-trip
example : bleiLine2doc intCodec.dec (bleiLine intCodec.enc (· != 0) [(3, 1), (4, 0)]) = none ∧
    bleiLine2doc intCodec.dec (bleiLine intCodec.enc (· != 0) [(3, 1), (9, -12)]) = some [(3, 1), (9, -12)] := by
  decide

example : ∀ v, PrintsExactly intCodec.enc intCodec.dec v :=
  fun v => ⟨intCodec.dec_enc v, fun c hc => ⟨intCodec.enc_no_ws v c hc, fun e => (intCodec_plain v).1 (e ▸ hc)⟩⟩

end Verif.Formats
