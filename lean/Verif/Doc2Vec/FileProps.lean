import Verif.Doc2Vec.StepModel
import Verif.W2V.ReadersProps
import Verif.Doc2Vec.StepProps

/-!
# C89: the documents of a corpus file and their tags
-/

namespace Verif.D2VStep

open Verif.W2V Verif.Text

/-! ## Specification -/

/-- The documents of a file, line by line: the words of each line. -/
def lineWords (text : Str) : List (List Str) := (pyLines text).map (splitWs bws)

/-- The documents as `TaggedLineDocument` numbers them: each line with its number, if there is a vector for it. -/
def numbered (docvecsCount : ℕ) (docs : List (List Str)) (start : ℕ) : List (List Str × List ℕ) :=
  (docs.zipIdx start).map fun p => (p.1, if p.2 < docvecsCount then [p.2] else [])

/-! ## Lines -/

theorem line_cases (text : Str) :
    '\n' ∉ text ∨ ∃ s t, '\n' ∉ s ∧ text = s ++ '\n' :: t := by
  induction text with
  | nil => exact Or.inl (by simp)
  | cons c text ih =>
    by_cases hc : c = '\n'
    · exact Or.inr ⟨[], text, by simp, by simp [hc]⟩
    · rcases ih with h | ⟨s, t, hs, ht⟩
      · refine Or.inl ?_
        simp only [List.mem_cons, not_or]
        exact ⟨fun h => hc h.symm, h⟩
      · refine Or.inr ⟨c :: s, t, ?_, by simp [ht]⟩
        simp only [List.mem_cons, not_or]
        exact ⟨fun h => hc h.symm, hs⟩

theorem pyLines_last {s : Str} (hn : '\n' ∉ s) (hs : s ≠ []) : pyLines s = [s] := by
  induction s with
  | nil => exact absurd rfl hs
  | cons c s ih =>
    simp only [List.mem_cons, not_or] at hn
    rw [pyLines, if_neg (fun h => hn.1 h.symm)]
    by_cases h : s = []
    · subst h
      rfl
    · rw [ih hn.2 h]

theorem splitWs_newline (s : Str) : splitWs bws (s ++ ['\n']) = splitWs bws s := by
  rw [splitWs_append (show bws '\n' = true by decide)]
  simp [splitWs, splitWsAux]

theorem fastLines_lines : ∀ (n : ℕ) (text : Str), text.length = n →
    (fastLines text).filter (fun l => l ≠ []) = (lineWords text).filter (fun l => l ≠ []) := by
  intro n
  induction n using Nat.strong_induction_on with
  | _ n ih =>
    intro text hn
    rcases line_cases text with h | ⟨s, t, hs, rfl⟩
    · unfold fastLines lineWords
      rw [splitOn_no_sep h]
      by_cases hne : text = []
      · subst hne
        simp [pyLines, splitWs, splitWsAux]
      · rw [pyLines_last h hne]
    · have := ih t.length (by rw [← hn]; simp; omega) t rfl
      unfold fastLines lineWords at *
      rw [splitOn_append_sep hs, pyLines_cons_line hs, List.map_cons, List.map_cons, splitWs_newline,
        List.filter_cons, List.filter_cons, this]

theorem pyLines_drop : ∀ (k : ℕ) (text : Str), k ≤ (pyLines text).length →
    pyLines (text.drop (lineStart (pyLines text) k)) = (pyLines text).drop k := by
  intro k
  induction k with
  | zero => intro text _; simp [lineStart]
  | succ k ih =>
    intro text hk
    rcases line_cases text with h | ⟨s, t, hs, rfl⟩
    · by_cases hne : text = []
      · subst hne
        simp [pyLines] at hk
      · rw [pyLines_last h hne] at hk ⊢
        simp [lineStart, pyLines]
    · rw [pyLines_cons_line hs] at hk ⊢
      have h1 : lineStart ((s ++ ['\n']) :: pyLines t) (k + 1) = s.length + 1 + lineStart (pyLines t) k := by
        simp [lineStart]
      rw [h1, List.drop_succ_cons, ← ih t (by simpa using hk), ← List.drop_drop]
      congr 2
      rw [show s ++ '\n' :: t = (s ++ ['\n']) ++ t by simp]
      exact List.drop_left' (by simp)

/-! ## What a worker trains -/

/-- Empty lines are left out. -/
theorem fileDocs_filter {α : Type} [DecidableEq α] (dc share : ℕ) (ls : List (List α)) (tag total : ℕ) :
    fileDocs dc share ls tag total = fileDocs dc share (ls.filter fun l => l ≠ []) tag total := by
  induction ls generalizing tag total with
  | nil => rfl
  | cons l ls ih =>
    by_cases hl : l = []
    · rw [List.filter_cons_of_neg (by simpa using hl), ← ih, fileDocs, if_pos hl]
      split
      · rename_i h
        cases ls with
        | nil => rfl
        | cons m ms => rw [fileDocs, if_pos h]
      · rfl
    · rw [List.filter_cons_of_pos (by simpa using hl), fileDocs, fileDocs, if_neg hl, if_neg hl, ih]

theorem fileDocsConcat_filter {α : Type} [DecidableEq α] (dc share : ℕ) (ls : List (List α)) (done total : ℕ) :
    fileDocsConcat dc share ls done total = fileDocsConcat dc share (ls.filter fun l => l ≠ []) done total := by
  induction ls generalizing done total with
  | nil => rfl
  | cons l ls ih =>
    by_cases hl : l = []
    · rw [List.filter_cons_of_neg (by simpa using hl), ← ih, fileDocsConcat, if_pos (Or.inl hl)]
      split
      · rename_i h
        cases ls with
        | nil => rfl
        | cons m ms => rw [fileDocsConcat, if_pos h]
      · rfl
    · rw [List.filter_cons_of_pos (by simpa using hl), fileDocsConcat, fileDocsConcat, ih, ih]

/-- The documents of a worker are a prefix of its lines, as far as the words trained before are within its share. -/
theorem fileDocs_prefix (dc share : ℕ) (ls : List (List Str)) (hls : ∀ l ∈ ls, l ≠ []) (tag total : ℕ) :
    ∃ m, m ≤ ls.length ∧ fileDocs dc share ls tag total = numbered dc (ls.take m) tag ∧
      (∀ j, j < m → total + nwords (ls.take j) ≤ share) ∧
      (m < ls.length → share < total + nwords (ls.take m)) := by
  induction ls generalizing tag total with
  | nil => exact ⟨0, by simp, rfl, by simp, by simp⟩
  | cons l ls ih =>
    rw [fileDocs, if_neg (hls l (by simp))]
    by_cases ht : total > share
    · rw [if_pos ht]
      exact ⟨0, by simp, rfl, by simp, fun _ => by simpa [nwords] using ht⟩
    · rw [if_neg ht]
      obtain ⟨m, h1, h2, h3, h4⟩ := ih (fun l hl => hls l (by simp [hl])) (tag + 1) (total + l.length)
      refine ⟨m + 1, by simpa using h1, ?_, ?_, ?_⟩
      · rw [h2]
        simp [numbered]
      · intro j hj
        cases j with
        | zero => simpa [nwords] using ht
        | succ j =>
          have := h3 j (by omega)
          simp only [nwords, List.take_succ_cons, List.map_cons, List.sum_cons] at this ⊢
          omega
      · intro hm
        have := h4 (by simpa using hm)
        simp only [nwords, List.take_succ_cons, List.map_cons, List.sum_cons] at this ⊢
        omega

/-- What the worker that starts at the line `k` trains. -/
theorem worker_docs (dc share : ℕ) (text : Str) (k : ℕ) (hk : k ≤ (pyLines text).length) (tag : ℕ) :
    fileDocs dc share (fastLines (text.drop (lineStart (pyLines text) k))) tag 0
      = fileDocs dc share ((lineWords text).drop k) tag 0 := by
  rw [fileDocs_filter, fastLines_lines _ _ rfl, ← fileDocs_filter]
  unfold lineWords
  rw [pyLines_drop k text hk, List.map_drop]

/-- **C89.** If no line is empty, each worker trains consecutive lines of the file, each exactly with its line
number as its tag (the number that `TaggedLineDocument` gives), starting with the line where its offset points. -/
theorem C89_tags (dc workers totalWords : ℕ) (text : Str) (hne : text ≠ [])
    (hl : ∀ l ∈ lineWords text, l ≠ []) (i : ℕ) (docs : List (List Str × List ℕ))
    (hi : (epochDocs dc workers totalWords text)[i]? = some docs) :
    ∃ k m, LineOf (pyLines text) (text.length / workers * i) (lineStart (pyLines text) k, k) ∧
      docs = ((numbered dc (lineWords text) 0).drop k).take m := by
  unfold epochDocs at hi
  rw [List.getElem?_map, Option.map_eq_some_iff] at hi
  obtain ⟨o, ho, rfl⟩ := hi
  have hof := C36_offsets text workers hne
  obtain ⟨hlen, hget⟩ := List.forall₂_iff_get.1 hof
  obtain ⟨hio, hoe⟩ := List.getElem?_eq_some_iff.1 ho
  have hLine := hget i (by rw [hlen]; exact hio) hio
  simp only [List.get_eq_getElem, List.getElem_map, List.getElem_range] at hLine
  rw [hoe] at hLine
  obtain ⟨line, a1, a2, a3, a4⟩ := hLine
  have hk : o.2 ≤ (pyLines text).length := (List.getElem?_eq_some_iff.1 a1).1.le
  rw [a2, worker_docs dc _ text o.2 hk]
  obtain ⟨m, _, h2, _, _⟩ := fileDocs_prefix dc (totalWords / workers) ((lineWords text).drop o.2)
    (fun l h => hl l (List.mem_of_mem_drop h)) o.2 0
  refine ⟨o.2, m, ⟨line, a1, rfl, by rw [← a2]; exact a3, by rw [← a2]; exact a4⟩, ?_⟩
  rw [h2]
  unfold numbered
  rw [← List.map_drop, ← List.map_take]
  congr 1
  apply List.ext_getElem?
  intro j
  by_cases hj : j < m
  · rw [List.getElem?_take_of_lt hj, List.getElem?_drop, List.getElem?_zipIdx, List.getElem?_zipIdx,
      List.getElem?_take_of_lt hj, List.getElem?_drop]
    simp
  · rw [List.getElem?_eq_none (by simp; omega), List.getElem?_eq_none (by simp; omega)]

/-- **C89.** How many lines a worker trains: it stops at the first line before which it has trained more words
than its share, and not before. -/
theorem C89_share (dc share : ℕ) (ls : List (List Str)) (hls : ∀ l ∈ ls, l ≠ []) (tag : ℕ) :
    ∃ m, m ≤ ls.length ∧ fileDocs dc share ls tag 0 = numbered dc (ls.take m) tag ∧
      (∀ j, j < m → nwords (ls.take j) ≤ share) ∧ (m < ls.length → share < nwords (ls.take m)) := by
  simpa using fileDocs_prefix dc share ls hls tag 0

/-- **C89.** With one worker every document is trained exactly once, with its own tag. -/
theorem C89_one_worker (dc totalWords : ℕ) (text : Str) (hne : text ≠ []) (hl : ∀ l ∈ lineWords text, l ≠ [])
    (ht : nwords (lineWords text) ≤ totalWords) :
    epochDocs dc 1 totalWords text = [numbered dc (lineWords text) 0] := by
  obtain ⟨h1, h2, _⟩ := C36_order text 1 hne one_pos
  have ho : fileOffsets text 1 = [(0, 0)] := by
    match hf : fileOffsets text 1, h1, h2 with
    | [x], _, h2 => simpa using h2
  unfold epochDocs
  rw [ho]
  simp only [List.map_cons, List.map_nil, Nat.div_one]
  have h0 := worker_docs dc totalWords text 0 (by simp) 0
  simp only [lineStart, List.take_zero, List.map_nil, List.sum_nil, List.drop_zero] at h0
  rw [List.drop_zero, h0]
  obtain ⟨m, m1, m2, _, m4⟩ := fileDocs_prefix dc totalWords (lineWords text) hl 0 0
  rw [m2]
  have hm : m = (lineWords text).length := by
    by_contra hc
    have h5 := m4 (by omega)
    have h6 : nwords ((lineWords text).take m) ≤ nwords (lineWords text) := by
      unfold nwords
      rw [List.map_take]
      exact List.Sublist.sum_le_sum (List.take_sublist _ _) (by simp)
    omega
  rw [hm, List.take_length]

/-- **C89.** Empty lines are not counted: what a worker trains is as if they were not in the file, so all the
documents after an empty line get tags too small by one for each empty line before. -/
theorem C89_empty_lines (dc totalWords : ℕ) (text : Str) (hne : text ≠ []) :
    epochDocs dc 1 totalWords text
      = [fileDocs dc totalWords ((lineWords text).filter fun l => l ≠ []) 0 0] := by
  obtain ⟨h1, h2, _⟩ := C36_order text 1 hne one_pos
  have ho : fileOffsets text 1 = [(0, 0)] := by
    match hf : fileOffsets text 1, h1, h2 with
    | [x], _, h2 => simpa using h2
  unfold epochDocs
  rw [ho]
  simp only [List.map_cons, List.map_nil, Nat.div_one]
  have h0 := worker_docs dc totalWords text 0 (by simp) 0
  simp only [lineStart, List.take_zero, List.map_nil, List.sum_nil, List.drop_zero] at h0
  rw [List.drop_zero, h0, fileDocs_filter]

/-! ## Where it goes wrong -/

/-- **C89.** An empty line shifts the tags: the document of the third line is trained with the tag of the
second, and the last tag is not trained. -/
theorem C89_shift_wrong :
    epochDocs 3 1 2 "a\n\nb\n".toList = [[(["a".toList], [0]), (["b".toList], [1])]] ∧
      numbered 3 (lineWords "a\n\nb\n".toList) 0 = [(["a".toList], [0]), ([], [1]), (["b".toList], [2])] := by
  decide +kernel

/-- **C89.** A document can be trained by two workers. -/
theorem C89_twice : epochDocs 2 2 7 "aaaaaaaaaaa\nb c d e f g\n".toList
    = [[(["aaaaaaaaaaa".toList], [0]), (["b".toList, "c".toList, "d".toList, "e".toList, "f".toList, "g".toList], [1])],
       [(["b".toList, "c".toList, "d".toList, "e".toList, "f".toList, "g".toList], [1])]] := by
  decide +kernel

/-- **C89.** A document can be trained by no worker. -/
theorem C89_never : epochDocs 3 2 8 "b c d e f g\naaaaa\naaaaaaaaaaaaaaaaaaa\n".toList
    = [[(["b".toList, "c".toList, "d".toList, "e".toList, "f".toList, "g".toList], [0])],
       [(["aaaaaaaaaaaaaaaaaaa".toList], [2])]] := by
  decide +kernel

/-- **C89.** With `dm_concat` the worker that starts at the second line trains it with the tag 0. -/
theorem C89_concat_start : epochDocsConcat 2 2 2 "aaaa\nbbbb\n".toList
    = [[(["aaaa".toList], [0]), (["bbbb".toList], [1])], [(["bbbb".toList], [0])]] := by
  decide +kernel

/-- **C89.** With `dm_concat` the tags of every worker count from 0. -/
theorem C89_concat_tags (dc share : ℕ) (ls : List (List Str)) (hls : ∀ l ∈ ls, l ≠ []) (hdc : ls.length ≤ dc) :
    fileDocsConcat dc share ls 0 0 = fileDocs dc share ls 0 0 := by
  have key : ∀ (ls : List (List Str)) (d t : ℕ), (∀ l ∈ ls, l ≠ []) → d + ls.length ≤ dc →
      fileDocsConcat dc share ls d t = fileDocs dc share ls d t := by
    intro ls
    induction ls with
    | nil => intros; rfl
    | cons l ls ih =>
      intro d t h hd
      simp only [List.length_cons] at hd
      have hl := h l (by simp)
      rw [fileDocsConcat, fileDocs, ih (d + 1) _ (fun l' h' => h l' (by simp [h'])) (by omega), if_neg hl,
        if_neg (show ¬ (l = [] ∨ ¬ d < dc) by simp [hl]; omega), if_pos (show d < dc by omega)]
  exact key ls 0 0 hls (by omega)

section Step
open Verif.W2V.Step
open scoped InnerProductSpace

variable {E : Type} [NormedAddCommGroup E] [InnerProductSpace ℝ E]

/-- A state for a witness: the output row reads only the first word of the window, not the tag. -/
noncomputable def firstWordOnly : DNet ℝ (Blocks ℝ 3) :=
  ⟨fun _ => 0, fun _ => 0, fun _ => WithLp.toLp 2 fun b => if b = 1 then 1 else 0, fun _ => 0, 0⟩

/-- **C89.** Training on a file with `dm_concat` adds to the vector of the tag the error of a word of the window: here
the loss does not depend on the vector of the tag, training on the same document from memory leaves it as it is,
and training from the file changes it. -/
theorem C89_concat_block_wrong :
    (∀ x : ℝ, wordLoss lockedConfig 0 0
        (concatInput [0] [0, 0] firstWordOnly.wv (Function.update firstWordOnly.dv 0 x) : Blocks ℝ 3)
        firstWordOnly.syn1 firstWordOnly.syn1neg
      = wordLoss lockedConfig 0 0 (concatInput [0] [0, 0] firstWordOnly.wv firstWordOnly.dv : Blocks ℝ 3)
        firstWordOnly.syn1 firstWordOnly.syn1neg) ∧
      (concatDocument lockedConfig 1 0 [0] [0] firstWordOnly).dv 0 = firstWordOnly.dv 0 ∧
      (fileConcat lockedConfig 0 [0] [0] firstWordOnly).dv 0 ≠ firstWordOnly.dv 0 := by
  have hs : sigm 0 = 1 / 2 := by
    unfold sigm
    norm_num
  have hw : concatWindow 1 0 [0] 0 = [0, 0] := by decide
  have h0 : ⟪(concatInput [0] [0, 0] firstWordOnly.wv firstWordOnly.dv : Blocks ℝ 3), firstWordOnly.syn1 0⟫_ℝ = 0 := by
    simp [PiLp.inner_apply, Fin.sum_univ_three, concatInput, firstWordOnly]
  have hx : ∀ x : ℝ, ⟪(concatInput [0] [0, 0] firstWordOnly.wv (Function.update firstWordOnly.dv 0 x) : Blocks ℝ 3),
      firstWordOnly.syn1 0⟫_ℝ = 0 := by
    intro x
    simp [PiLp.inner_apply, Fin.sum_univ_three, concatInput, firstWordOnly]
  refine ⟨?_, ?_, ?_⟩
  · intro x
    simp [wordLoss, lockedConfig, labels, pairLoss, h0, hx]
  · simp only [concatDocument, lockedConfig, List.length_cons, List.length_nil, List.range_succ, List.range_zero,
      List.nil_append, List.foldl_cons, List.foldl_nil, List.getD_cons_zero, Nat.zero_add, hw]
    simp only [concatWord, hidden, List.foldl_cons, List.foldl_nil, outHs, h0, exact, hs]
    simp [spreadBlocks, block, firstWordOnly, lock]
    rw [if_neg (by norm_num)]
    norm_num
  · simp only [fileConcat, lockedConfig, List.length_cons, List.length_nil, List.range_succ, List.range_zero,
      List.nil_append, List.foldl_cons, List.foldl_nil, List.getD_cons_zero, Nat.zero_add, hw]
    simp only [concatWord, hidden, List.foldl_cons, List.foldl_nil, outHs, h0, exact, hs]
    simp [spreadBlocks, block, firstWordOnly, lock]
    rw [if_neg (by norm_num)]
    norm_num

theorem context_reduced (window : ℕ) (reduced : ℕ → ℕ) (stop i : ℕ) (h : window ≤ reduced i) :
    context window reduced 0 stop i = [] := by
  unfold context
  dsimp only
  rw [List.filter_eq_nil_iff]
  intro a ha
  rw [List.mem_range'_1] at ha
  simp only [decide_not, Bool.not_eq_eq_eq_not, Bool.not_true, decide_eq_false_iff_not, not_not]
  split at ha <;> split at ha <;> omega

/-- **C89.** DM on a file: the reduced windows are never drawn, so what is in memory decides the contexts.  With one
content of the memory the file is trained as from memory with those windows; with another no word has a context
and no word vector is trained. -/
theorem C89_dm_windows (c : DConfig) (garbage : ℕ → ℕ) (indexes tags : List ℕ) (s : DNet E E) :
    (c.wordsLockf.length = c.doctagsLockf.length →
      fileDm c garbage indexes tags s = dmDocument c garbage indexes tags s) ∧
      ((∀ i, c.window ≤ garbage i) → (fileDm c garbage indexes tags s).wv = s.wv) := by
  refine ⟨?_, ?_⟩
  · intro h
    unfold fileDm dmDocument
    rw [h]
  · intro h
    unfold fileDm
    have key : ∀ (l : List ℕ) (s : DNet E E), (l.foldl (fun s i => dmWord c c.wordsLockf.length s (indexes.getD i 0)
        ((context c.window garbage 0 indexes.length i).map fun j => indexes.getD j 0) tags) s).wv = s.wv := by
      intro l
      induction l with
      | nil => intro s; rfl
      | cons i l ih =>
        intro s
        rw [List.foldl_cons, ih, context_reduced c.window garbage _ i (h i), List.map_nil]
        have hw : (hidden c (dmInput c.cbowMean [] tags s.wv s.dv) s (indexes.getD i 0)).1.wv = s.wv := by
          unfold hidden
          cases c.hs <;> by_cases hn : c.negative > 0 <;> simp [hn]
        unfold dmWord
        cases c.learnDoctags <;> cases c.learnWords <;> exact hw
    exact key _ s

end Step

end Verif.D2VStep
