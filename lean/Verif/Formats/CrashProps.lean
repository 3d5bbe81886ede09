import Verif.Formats.AnyProps
import Verif.Formats.WordProps

/-!
# C151: a crash while a corpus is written

A process that dies while it writes a corpus leaves the beginning of the file (simplified: the operating system keeps
the order of the writes; the header of a Matrix Market file is filled in by one write).
-/

namespace Verif.Formats
open Verif Text PyDict

variable {V : Type}

/-! ## Specification -/

/-- all but the last of the documents got are the first ones of those written, and there are not more of them -/
def UpToLast {α : Type} (written got : List α) : Prop :=
  ∃ whole last, got = whole ++ last ∧ whole <+: written ∧ last.length ≤ 1 ∧ got.length ≤ written.length

section streams
variable [LinearOrder V]

/-- the Matrix Market file before the numbers are filled in -/
def mmStream (C : Codec V) (big : V → Bool) (corpus : List (List (Nat × V))) : Str :=
  (corpus.foldl (mmStep C big) ⟨mmHeader ++ '\n' :: (List.replicate 50 ' ' ++ ['\n']), 0, -1, [], 0, 0⟩).fout

/-- the UCI file before the numbers are filled in -/
def uciStream (C : Codec V) (big : V → Bool) (vecs : List (List (Nat × V))) : Str :=
  (vecs.foldl (mmStep C big) ⟨(List.replicate 20 ' ' ++ ['\n']) ++ ((List.replicate 20 ' ' ++ ['\n']) ++
    (List.replicate 20 ' ' ++ ['\n'])), 0, -1, [], 0, 0⟩).fout

/-- `mmStream` and `uciStream` are what the writers write before the numbers -/
theorem C151_streams (C : Codec V) (big : V → Bool) (nt : Option Nat) (corpus : List (List (Nat × V))) :
    (∀ file offs, mmWrite C big nt corpus = some (file, offs) →
      ∃ stats, file = overwrite (mmStream C big corpus) (mmHeader.length + 1) stats) ∧
    (∀ file offs, uciWrite C big corpus = some (file, offs) →
      ∃ a b c, file = overwrite (overwrite (overwrite (uciStream C big corpus) 0 a) 21 b) 42 c) := by
  constructor
  · intro file offs h
    simp only [mmWrite] at h
    split at h
    · cases h
    · cases h
      exact ⟨_, rfl⟩
  · intro file offs h
    simp only [uciWrite] at h
    split at h
    · cases h
    · cases h
      exact ⟨_, _, _, rfl⟩

end streams

/-! ## The beginning of a file, in lines -/

/-- the lines of the beginning of a file: the first lines, and possibly a piece of the next -/
def Cut (lines got : List Str) : Prop :=
  ∃ k, got = lines.take k ∨ ∃ p q, lines[k]? = some (p ++ q) ∧ p ≠ [] ∧ q ≠ [] ∧ got = lines.take k ++ [p]

theorem pyLines_ne {s : Str} : ∀ l ∈ pyLines s, l ≠ [] := by
  induction s with
  | nil => simp [pyLines]
  | cons x xs ih =>
    unfold pyLines
    split
    · intro l hl
      rcases List.mem_cons.1 hl with rfl | hl
      · simp
      · exact ih l hl
    · cases hp : pyLines xs with
      | nil => simp
      | cons a as =>
        intro l hl
        simp only at hl
        rcases List.mem_cons.1 hl with rfl | hl
        · simp
        · exact ih l (by rw [hp]; simp [hl])

theorem pyLines_take (s : Str) (t : Nat) : Cut (pyLines s) (pyLines (s.take t)) := by
  induction s generalizing t with
  | nil => exact ⟨0, .inl (by simp [pyLines])⟩
  | cons x xs ih =>
    cases t with
    | zero => exact ⟨0, .inl (by simp [pyLines])⟩
    | succ t =>
      rw [List.take_succ_cons]
      have hne := @pyLines_ne xs
      obtain ⟨k, h⟩ := ih t
      unfold pyLines
      by_cases hx : x = '\n'
      · rw [if_pos hx, if_pos hx]
        refine ⟨k + 1, ?_⟩
        rcases h with h | ⟨p, q, h1, h2, h3, h4⟩
        · left; rw [h]; simp
        · right; exact ⟨p, q, by simpa using h1, h2, h3, by rw [h4]; simp⟩
      · rw [if_neg hx, if_neg hx]
        generalize pyLines xs = L at *
        generalize pyLines (xs.take t) = R at *
        rcases h with h | ⟨p, q, h1, h2, h3, h4⟩
        · cases L with
          | nil =>
            have : R = [] := by rw [h]; simp
            subst this
            exact ⟨1, .inl (by simp)⟩
          | cons l ls =>
            cases k with
            | zero =>
              have : R = [] := by rw [h]; simp
              subst this
              exact ⟨0, .inr ⟨[x], l, by simp, by simp, hne l (by simp), by simp⟩⟩
            | succ k =>
              rw [h]
              exact ⟨k + 1, .inl (by simp)⟩
        · cases L with
          | nil => simp at h1
          | cons l ls =>
            cases k with
            | zero =>
              simp only [List.getElem?_cons_zero, Option.some.injEq] at h1
              subst h1
              rw [h4]
              exact ⟨0, .inr ⟨x :: p, q, by simp, by simp, h3, by simp⟩⟩
            | succ k =>
              rw [h4]
              exact ⟨k + 1, .inr ⟨p, q, by simpa using h1, h2, h3, by simp⟩⟩

theorem Cut.length_le {lines got : List Str} (h : Cut lines got) : got.length ≤ lines.length := by
  obtain ⟨k, h | ⟨p, q, h1, _, _, h4⟩⟩ := h
  · rw [h]; exact List.length_take_le' _ _
  · have := (List.getElem?_eq_some_iff.1 h1).1
    rw [h4, List.length_append, List.length_take]
    simp only [List.length_cons, List.length_nil]
    omega

theorem mapOpt_append {α β : Type} (f : α → Option β) : ∀ (l m : List α) (r : List β), mapOpt f (l ++ m) = some r →
    ∃ a b, mapOpt f l = some a ∧ mapOpt f m = some b ∧ r = a ++ b := by
  intro l
  induction l with
  | nil => intro m r h; exact ⟨[], r, rfl, h, rfl⟩
  | cons x l ih =>
    intro m r h
    simp only [List.cons_append, mapOpt] at h ⊢
    cases hx : f x with
    | none => rw [hx] at h; simp at h
    | some y =>
      rw [hx] at h
      simp only [Option.bind_some] at h ⊢
      rw [Option.map_eq_some_iff] at h
      obtain ⟨r', h1, rfl⟩ := h
      obtain ⟨a, b, h2, h3, rfl⟩ := ih m r' h1
      exact ⟨y :: a, b, by simp [h2], h3, rfl⟩

theorem mapOpt_length {α β : Type} (f : α → Option β) : ∀ (l : List α) (r : List β), mapOpt f l = some r →
    r.length = l.length := by
  intro l
  induction l with
  | nil => intro r h; simp only [mapOpt, Option.some.injEq] at h; subst h; rfl
  | cons x l ih =>
    intro r h
    simp only [mapOpt] at h
    cases hx : f x with
    | none => rw [hx] at h; simp at h
    | some y =>
      rw [hx] at h
      simp only [Option.bind_some] at h
      rw [Option.map_eq_some_iff] at h
      obtain ⟨r', h1, rfl⟩ := h
      simp [ih r' h1]

/-- reading the beginning of a file line by line -/
theorem mapOpt_cut {β : Type} (f : Str → Option β) {lines got : List Str} {full r : List β} (h : Cut lines got)
    (hf : mapOpt f lines = some full) (hr : mapOpt f got = some r) : UpToLast full r := by
  have hlen : r.length ≤ full.length := by
    rw [mapOpt_length f _ _ hr, mapOpt_length f _ _ hf]; exact h.length_le
  obtain ⟨k, h⟩ := h
  rw [← List.take_append_drop k lines] at hf
  obtain ⟨a, b, h1, _, rfl⟩ := mapOpt_append f _ _ _ hf
  rcases h with rfl | ⟨p, q, _, _, _, rfl⟩
  · rw [h1] at hr
    cases hr
    exact ⟨r, [], by simp, List.prefix_append _ _, by simp, hlen⟩
  · obtain ⟨a', c, h2, h3, rfl⟩ := mapOpt_append f _ _ _ hr
    rw [h1] at h2
    cases h2
    exact ⟨a, c, rfl, List.prefix_append _ _, by rw [mapOpt_length f _ _ h3]; simp, hlen⟩

/-! ## Formats of one line per document -/

/-- **C151** SVMlight: reading what a crash left raises, or gives the first documents and at most one more, cut. -/
theorem C151_svm (C : Codec V) (hC : Plain C.enc) (labels : Option (List Str)) (corpus : List (List (Nat × V)))
    (hl : ∀ ls, labels = some ls → ∀ l ∈ ls, Word l ∧ '#' ∉ l) {file : Str} {offs : List Nat}
    (h : svmSave C labels corpus = some (file, offs)) (t : Nat) (docs : List (List (Int × V))) (lab : List Str) (n : Nat)
    (hr : svmIter C (file.take t) = some (docs, lab, n)) : UpToLast (corpus.map readPairs) docs := by
  have hfull := (C23_corpus C hC labels corpus hl h).1
  unfold svmIter at hfull hr
  rw [Option.map_eq_some_iff] at hfull hr
  obtain ⟨rs, h1, h2⟩ := hfull
  obtain ⟨rs', h3, h4⟩ := hr
  simp only [Prod.mk.injEq] at h2 h4
  have hcut := pyLines_take file t
  obtain ⟨whole, last, e, hp, hlast, hlen⟩ := mapOpt_cut _ hcut h1 h3
  refine ⟨(whole.filterMap id).map Prod.fst, (last.filterMap id).map Prod.fst, ?_, ?_, ?_, ?_⟩
  · rw [← h4.1, e]; simp
  · rw [← h2.1]
    obtain ⟨s, rfl⟩ := hp
    simp
  · rw [List.length_map]
    exact Nat.le_trans (List.length_filterMap_le _ _) hlast
  · rw [← h4.1, List.length_map, List.length_map, ← h2.2.2, ← mapOpt_length _ _ _ h1]
    exact Nat.le_trans (List.length_filterMap_le _ _) hlen

/-- **C151** Blei's format: the same. -/
theorem C151_blei (encG : V → Str) (dec : Str → Option V) (big : V → Bool) (corpus : List (List (Nat × V)))
    (hp : ∀ d ∈ corpus, ∀ p ∈ d, PrintsExactly encG dec p.2) (hb : ∀ d ∈ corpus, ∀ p ∈ d, big p.2 = true)
    (t : Nat) (docs : List (List (Int × V))) (hr : bleiIter dec ((bleiSave encG big corpus).1.take t) = some docs) :
    UpToLast (corpus.map readPairs) docs :=
  mapOpt_cut _ (pyLines_take _ t) (C24_corpus encG dec big corpus hp hb).1 hr

/-- **C151** Mallet's format: the same. -/
theorem C151_mallet {d : PyDict Nat Str} (hd : VocabOk d) (corpus : List (List (Nat × Int)))
    (hb : ∀ doc ∈ corpus, BowOk d doc) {file : Str} {offs : List Nat} (h : malletSave d corpus = some (file, offs))
    (t : Nat) (docs : List (List (Nat × Nat) × Str × Str)) (hr : malletRead d (file.take t) = some docs) :
    UpToLast (corpus.zipIdx.map (fun p => (natCounts p.1, showNat p.2, "__unknown__".toList))) docs := by
  obtain ⟨file', offs', h1, h2, _⟩ := C25_mallet_roundtrip hd corpus hb
  rw [h] at h1
  cases h1
  exact mapOpt_cut _ (pyLines_take _ t) h2 hr

/-- **C151** List of words: the same, and once the first line is written the announced number of documents is the full
one, however few can be read. -/
theorem C151_low {d : PyDict Nat Str} (hd : VocabOk d) (corpus : List (List (Nat × Int)))
    (hb : ∀ doc ∈ corpus, BowOk d doc) {file : Str} {offs : List Nat} (h : lowSave d corpus = some (file, offs))
    (t : Nat) (n : Int) (docs : List (List (Nat × Nat))) (hr : lowRead d (file.take t) = some (n, docs)) :
    UpToLast (corpus.map natCounts) docs ∧ ((showNat corpus.length).length < t → n = corpus.length) := by
  obtain ⟨file', offs', h1, h2, _⟩ := C25_low_roundtrip hd corpus hb
  rw [h] at h1
  cases h1
  have hcut := pyLines_take file t
  have hdocs : ((pyLines file).drop 1).map (fun l => lowWords2doc (rev d) (splitOnSpace l)) = corpus.map natCounts := by
    unfold lowRead at h2
    simp only at h2
    split at h2
    · exact (Prod.mk.inj (Option.some.inj h2)).2
    · rw [Option.map_eq_some_iff] at h2
      obtain ⟨_, _, h3⟩ := h2
      exact (Prod.mk.inj h3).2
  have hdocs' : docs = ((pyLines (file.take t)).drop 1).map (fun l => lowWords2doc (rev d) (splitOnSpace l)) := by
    unfold lowRead at hr
    simp only at hr
    split at hr
    · exact (Prod.mk.inj (Option.some.inj hr)).2.symm
    · rw [Option.map_eq_some_iff] at hr
      obtain ⟨_, _, h3⟩ := hr
      exact (Prod.mk.inj h3).2.symm
  have hlen := hcut.length_le
  refine ⟨?_, ?_⟩
  · rw [hdocs', ← hdocs]
    obtain ⟨k, hk | ⟨p, q, h1, _, _, h4⟩⟩ := hcut
    · refine ⟨_, [], (List.append_nil _).symm, ?_, by simp, ?_⟩
      · rw [hk, List.drop_take]
        exact List.IsPrefix.map _ (List.take_prefix _ _)
      · simp only [List.length_map, List.length_drop]; omega
    · rw [h4, List.drop_append]
      refine ⟨(((pyLines file).take k).drop 1).map _, _, List.map_append, ?_, ?_, ?_⟩
      · rw [List.drop_take]
        exact List.IsPrefix.map _ (List.take_prefix _ _)
      · rw [List.length_map, List.length_drop]; simp
      · rw [← List.drop_append, ← h4]
        simp only [List.length_map, List.length_drop]; omega
  · intro ht
    have hfile : ∃ rest, file = showNat corpus.length ++ '\n' :: rest := by
      unfold lowSave at h
      rw [Option.map_eq_some_iff] at h
      obtain ⟨ds, _, h5⟩ := h
      have := (saveLines_eq (showNat corpus.length ++ ['\n']) (ds.map (fun ws => joinWith [' '] ws ++ ['\n']))).1
      rw [h5] at this
      refine ⟨(ds.map (fun ws => joinWith [' '] ws ++ ['\n'])).flatten, this.trans ?_⟩
      rw [List.append_assoc]
      rfl
    obtain ⟨rest, rfl⟩ := hfile
    obtain ⟨m, hm⟩ : ∃ m, t = (showNat corpus.length).length + (m + 1) := ⟨t - (showNat corpus.length).length - 1, by omega⟩
    have hnl : '\n' ∉ showNat corpus.length := fun hc => by have := showNat_digit _ _ hc; simp at this
    rw [hm, List.take_length_add_append, List.take_succ_cons] at hr
    unfold lowRead at hr
    simp only [pyLines_cons_line hnl] at hr
    rw [readInt_showNat_ws _ (by intro c hc; simp at hc; subst hc; decide)] at hr
    simp only [Option.map_some, Option.some.injEq, Prod.mk.injEq] at hr
    exact hr.1.symm

/-! ## Matrix Market and UCI -/

section streams
variable [LinearOrder V]

theorem mmStep_prefix (C : Codec V) (big : V → Bool) (corpus : List (List (Nat × V))) (s : MmW) :
    s.fout <+: (corpus.foldl (mmStep C big) s).fout := by
  induction corpus generalizing s with
  | nil => exact List.prefix_refl _
  | cons d ds ih =>
    refine List.IsPrefix.trans ?_ (ih _)
    unfold mmStep
    exact List.prefix_append _ _

theorem spaces_take (n m : Nat) : (List.replicate n ' ').take m = List.replicate (min m n) ' ' := by
  rw [List.take_replicate]

theorem header_short : ∀ t, t < 45 → ((mmHeader.map lowerC).isPrefixOf ((strip uws (mmHeader.take t)).map lowerC)) = false := by
  decide +kernel

theorem spaces_no_newline (n : Nat) : '\n' ∉ List.replicate n ' ' := by
  intro h
  exact absurd (List.eq_of_mem_replicate h) (by decide)

theorem pyLines_single {s : Str} (h : '\n' ∉ s) (hs : s ≠ []) : pyLines s = [s] := by
  induction s with
  | nil => exact absurd rfl hs
  | cons x xs ih =>
    simp only [List.mem_cons, not_or] at h
    unfold pyLines
    rw [if_neg (fun e => h.1 e.symm)]
    cases xs with
    | nil => rfl
    | cons y ys => rw [ih h.2 (by simp)]

theorem uws_of_bws {c : Char} (h : bws c = true) : uws c = true := by
  unfold uws
  rw [h]; rfl

theorem dropWhile_all {p : Char → Bool} : ∀ l : Str, (∀ c ∈ l, p c = true) → l.dropWhile p = [] := by
  intro l
  induction l with
  | nil => intro _; rfl
  | cons x l ih =>
    intro h
    rw [List.dropWhile_cons, if_pos (h x (by simp))]
    exact ih (fun c hc => h c (by simp [hc]))

/-- the lines of text that begins with some blanks -/
theorem pyLines_blank (n : Nat) (hn : 0 < n) (rest : Str) (m : Nat) (hm : 0 < m) :
    ∃ l ls, pyLines ((List.replicate n ' ' ++ '\n' :: rest).take m) = l :: ls ∧ l.head? = some ' ' ∧ ∀ c ∈ l, bws c = true := by
  by_cases h : m ≤ n
  · have e : (List.replicate n ' ' ++ '\n' :: rest).take m = List.replicate m ' ' := by
      rw [List.take_append_of_le_length (by simpa using h), spaces_take, Nat.min_eq_left h]
    rw [e, pyLines_single (spaces_no_newline m) (by intro h0; have := congrArg List.length h0; simp at this; omega)]
    refine ⟨_, _, rfl, ?_, ?_⟩
    · obtain ⟨m, rfl⟩ : ∃ k, m = k + 1 := ⟨m - 1, by omega⟩
      rfl
    · intro c hc
      rw [List.eq_of_mem_replicate hc]; decide
  · obtain ⟨k, rfl⟩ : ∃ k, m = n + (k + 1) := ⟨m - n - 1, by omega⟩
    have e : (List.replicate n ' ' ++ '\n' :: rest).take (n + (k + 1)) = List.replicate n ' ' ++ '\n' :: rest.take k := by
      have := List.take_length_add_append (i := k + 1) (l₁ := List.replicate n ' ') (l₂ := '\n' :: rest)
      rw [List.length_replicate] at this
      rw [this, List.take_succ_cons]
    rw [e, pyLines_cons_line (spaces_no_newline n)]
    refine ⟨_, _, rfl, ?_, ?_⟩
    · obtain ⟨n, rfl⟩ : ∃ k, n = k + 1 := ⟨n - 1, by omega⟩
      rfl
    · intro c hc
      simp only [List.mem_append, List.mem_singleton] at hc
      rcases hc with hc | rfl
      · rw [List.eq_of_mem_replicate hc]; decide
      · decide

/-- **C151** Matrix Market: whatever a crash before the numbers are filled in leaves, opening it raises, unless only the
first line is there (or nothing): then it is read as a corpus without documents. -/
theorem C151_mm (C : Codec V) (big : V → Bool) (corpus : List (List (Nat × V))) (transposed : Bool) (t : Nat) :
    (t ≠ 0 ∧ t ≠ 45 ∧ t ≠ 46 → mmInit transposed ((mmStream C big corpus).take t) = none) ∧
    (t = 0 ∨ t = 45 ∨ t = 46 → mmInit transposed ((mmStream C big corpus).take t) = some (0, 0, 0) ∧
      mmRead C transposed ((mmStream C big corpus).take t) = some []) := by
  obtain ⟨rest, hrest⟩ := mmStep_prefix C big corpus ⟨mmHeader ++ '\n' :: (List.replicate 50 ' ' ++ ['\n']), 0, -1, [], 0, 0⟩
  have hs : mmStream C big corpus = mmHeader ++ '\n' :: (List.replicate 50 ' ' ++ '\n' :: rest) := by
    unfold mmStream
    rw [← hrest]
    simp
  have hl : mmHeader.length = 45 := by decide
  have hn : '\n' ∉ mmHeader := by decide
  rw [hs]
  constructor
  · rintro ⟨h0, h1, h2⟩
    by_cases ht : t < 45
    · rw [List.take_append_of_le_length (by omega)]
      unfold mmInit
      rw [pyLines_single (fun hc => hn (List.mem_of_mem_take hc)) (by
        intro h; have := congrArg List.length h; simp [hl] at this; omega)]
      simp only [header_short t ht, Bool.false_eq_true, if_false]
    · obtain ⟨m, rfl⟩ : ∃ m, t = mmHeader.length + (m + 1 + 1) := ⟨t - 47, by omega⟩
      rw [List.take_length_add_append, List.take_succ_cons]
      obtain ⟨l, ls, e, e1, e2⟩ := pyLines_blank 50 (by omega) rest (m + 1) (by omega)
      unfold mmInit
      rw [pyLines_cons_line hn, e]
      simp only
      rw [if_pos (by decide)]
      unfold readStats
      rw [if_neg (by rw [e1]; decide), splitWs_all_ws (fun c hc => uws_of_bws (e2 c hc))]
  · have h45 : (mmHeader ++ '\n' :: (List.replicate 50 ' ' ++ '\n' :: rest)).take 45 = mmHeader := by
      have := List.take_left' (l₁ := mmHeader) (l₂ := '\n' :: (List.replicate 50 ' ' ++ '\n' :: rest)) hl
      exact this
    have h46 : (mmHeader ++ '\n' :: (List.replicate 50 ' ' ++ '\n' :: rest)).take 46 = mmHeader ++ ['\n'] := by
      have := List.take_length_add_append (i := 1) (l₁ := mmHeader) (l₂ := '\n' :: (List.replicate 50 ' ' ++ '\n' :: rest))
      rw [hl] at this
      rw [this]; rfl
    have r : ∀ f : Str, f = [] ∨ f = mmHeader ∨ f = mmHeader ++ ['\n'] →
        mmInit transposed f = some (0, 0, 0) ∧ skipHeaders (pyLines f) = [] := by
      rintro f (rfl | rfl | rfl) <;> cases transposed <;> exact ⟨by decide +kernel, by decide +kernel⟩
    intro h
    have hf : (mmHeader ++ '\n' :: (List.replicate 50 ' ' ++ '\n' :: rest)).take t = [] ∨
        (mmHeader ++ '\n' :: (List.replicate 50 ' ' ++ '\n' :: rest)).take t = mmHeader ∨
        (mmHeader ++ '\n' :: (List.replicate 50 ' ' ++ '\n' :: rest)).take t = mmHeader ++ ['\n'] := by
      rcases h with rfl | rfl | rfl
      · left; rfl
      · right; left; exact h45
      · right; right; exact h46
    obtain ⟨r1, r2⟩ := r _ hf
    refine ⟨r1, ?_⟩
    unfold mmRead
    rw [r1, Option.bind_some, r2]
    rfl

/-- **C151** UCI: whatever a crash before the numbers are filled in leaves, opening it raises, unless nothing is there. -/
theorem C151_uci (C : Codec V) (big : V → Bool) (corpus : List (List (Nat × V))) (t : Nat) (ht : t ≠ 0) :
    uciInit ((uciStream C big corpus).take t) = none := by
  obtain ⟨rest, hrest⟩ := mmStep_prefix C big corpus ⟨(List.replicate 20 ' ' ++ ['\n']) ++ ((List.replicate 20 ' ' ++ ['\n']) ++
    (List.replicate 20 ' ' ++ ['\n'])), 0, -1, [], 0, 0⟩
  obtain ⟨rest', hs⟩ : ∃ rest', uciStream C big corpus = List.replicate 20 ' ' ++ '\n' :: rest' := by
    unfold uciStream
    rw [← hrest]
    refine ⟨((List.replicate 20 ' ' ++ ['\n']) ++ (List.replicate 20 ' ' ++ ['\n'])) ++ rest, ?_⟩
    simp only [List.append_assoc, List.cons_append, List.nil_append]
  rw [hs]
  obtain ⟨l, ls, e, e1, e2⟩ := pyLines_blank 20 (by omega) rest' t (by omega)
  have hstrip : readInt (strip bws l) = none := by
    have : strip bws l = [] := by
      have h2 : l.dropWhile bws = [] := dropWhile_all l e2
      unfold strip lstrip
      rw [h2]; rfl
    rw [this]
    decide
  unfold uciInit
  rw [e]
  rcases ls with _ | ⟨b, _ | ⟨c, ls⟩⟩
  · simp [hstrip]
  · simp [hstrip]
  · simp [hstrip]

end streams

/-! ## What the cut documents look like -/

/-- **C151** Cut SVMlight, Blei, list-of-words and Mallet files are read without complaint as documents with other
weights and other words: a weight of 12 becomes 1, already when only the last newline is missing in SVMlight; the word
`ab` becomes the word `a`. -/
theorem C151_cut_documents :
    svmSave intCodec none [[(0, 12)]] = some ("0 1:12\n".toList, [0]) ∧
    svmIter intCodec ("0 1:12\n".toList.take 6) = some ([[(0, 1)]], [['0']], 1) ∧
    (bleiSave intCodec.enc (fun _ => true) [[(0, 12)]]).1 = "1 0:12\n".toList ∧
    bleiIter intCodec.dec ("1 0:12\n".toList.take 5) = some [[(0, 1)]] ∧
    lowSave [(0, ['a']), (1, ['a', 'b'])] [[(1, 1)]] = some ("1\nab\n".toList, [2]) ∧
    lowRead [(0, ['a']), (1, ['a', 'b'])] ("1\nab\n".toList.take 3) = some (1, [[(0, 1)]]) ∧
    malletSave [(0, ['a']), (1, ['a', 'b'])] [[(1, 1)]] = some ("0 __unknown__ ab\n".toList, [0]) ∧
    malletRead [(0, ['a']), (1, ['a', 'b'])] ("0 __unknown__ ab\n".toList.take 15) =
      some [([(0, 1)], ['0'], "__unknown__".toList)] := by
  refine ⟨?_, ?_, ?_, ?_, ?_, ?_, ?_, ?_⟩ <;> decide +kernel

/-- a list-of-words file of two documents cut after the first: `len()` says 2 -/
example : lowRead [(0, ['a'])] ("2\na\na\n".toList.take 4) = some (2, [[(0, 1)]]) := by decide +kernel

/-- a Matrix Market file cut in its body cannot be opened -/
example : mmInit true ((mmStream intCodec (fun _ => true) [[(0, 1)], [(1, 5)]]).take 100) = none :=
  (C151_mm intCodec _ _ true 100).1 (by decide)

end Verif.Formats
