import Mathlib.Tactic.Common
import Mathlib.Data.List.Infix
import Mathlib.Data.List.Forall2
import Verif.Utils.ChunkProps
import Verif.W2V.ReadersModel

/-!
# C33: sentence readers.  C34: corpus_file batches.  C36: file offsets.
-/

namespace Verif.W2V

open Verif.Text Verif.Chunk

/-! ## C33 -/

theorem splitWsAux_append {ws : Char → Bool} {c : Char} (hc : ws c = true) (t : Str) : ∀ (s cur : Str),
    splitWsAux ws cur (s ++ c :: t) = splitWsAux ws cur s ++ splitWs ws t := by
  intro s
  induction s with
  | nil =>
    intro cur
    simp only [List.nil_append, splitWsAux, hc, if_true, splitWs]
    split
    · rfl
    · rfl
  | cons x s ih =>
    intro cur
    simp only [List.cons_append, splitWsAux]
    split
    · split
      · exact ih []
      · rw [ih []]; rfl
    · exact ih _

theorem splitWs_append {ws : Char → Bool} {c : Char} (hc : ws c = true) (s t : Str) :
    splitWs ws (s ++ c :: t) = splitWs ws s ++ splitWs ws t := splitWsAux_append hc t s []

theorem exists_last_space (text : Str) (h : ' ' ∈ text) : ∃ pre suf, text = pre ++ ' ' :: suf ∧ ' ' ∉ suf := by
  induction text with
  | nil => simp at h
  | cons c text ih =>
    by_cases ht : ' ' ∈ text
    · obtain ⟨pre, suf, h1, h2⟩ := ih ht
      exact ⟨c :: pre, suf, by rw [h1]; rfl, h2⟩
    · rcases List.mem_cons.mp h with rfl | h
      · exact ⟨[], text, rfl, ht⟩
      · exact absurd h ht

theorem takeWhile_all_append {p : Char → Bool} {c : Char} (hc : p c = false) : ∀ (s t : Str), (∀ x ∈ s, p x = true) →
    (s ++ c :: t).takeWhile p = s := by
  intro s
  induction s with
  | nil => intro t _; simp [hc]
  | cons x s ih =>
    intro t h
    rw [List.cons_append, List.takeWhile_cons_of_pos (h x List.mem_cons_self),
      ih t (fun y hy => h y (List.mem_cons_of_mem _ hy))]

theorem afterLast_eq (pre suf : Str) (h : ' ' ∉ suf) : afterLast (pre ++ ' ' :: suf) = suf := by
  unfold afterLast
  rw [List.reverse_append, List.reverse_cons, List.append_assoc, List.singleton_append,
    takeWhile_all_append (by simp) _ _ (by
      intro x hx
      simp only [decide_eq_true_eq]
      rintro rfl
      exact h (List.mem_reverse.mp hx)), List.reverse_reverse]

/-- the only white space of the text is the space -/
def SpacesOnly (s : Str) : Prop := ∀ c ∈ s, uws c = true → c = ' '

theorem uws_of_bws {c : Char} (h : bws c = true) : uws c = true := by unfold uws; simp [h]

theorem dropWhile_none {p : Char → Bool} {s : Str} (h : ∀ x ∈ s, p x = false) : s.dropWhile p = s := by
  cases s with
  | nil => rfl
  | cons x s => rw [List.dropWhile_cons_of_neg (by rw [h x List.mem_cons_self]; simp)]

theorem cutLast_eq (pre suf : Str) (h : ' ' ∉ suf) (hs : SpacesOnly suf) :
    cutLast (pre ++ ' ' :: suf) = (splitWs uws pre, suf) := by
  unfold cutLast
  rw [if_pos (by simp), afterLast_eq pre suf h]
  have e : (pre ++ ' ' :: suf).length - suf.length - 1 = pre.length := by
    simp only [List.length_append, List.length_cons]; omega
  have hb : ∀ x ∈ suf, bws x = false := by
    intro x hx
    by_contra hcon
    have : bws x = true := by cases hbx : bws x <;> simp_all
    have := hs x hx (uws_of_bws this)
    subst this
    exact h hx
  dsimp only
  rw [e, List.take_left, List.drop_left]
  congr 1
  unfold strip lstrip rstrip
  rw [List.dropWhile_cons_of_pos (by decide), dropWhile_none hb,
    dropWhile_none (fun x hx => hb x (List.mem_reverse.mp hx)), List.reverse_reverse]

theorem emit_spec {α : Type} {k : Nat} (hk : 0 < k) : ∀ (fuel : Nat) (s t : List α), s.length ≤ fuel →
    (emit k fuel s).2.length < k ∧ chunks k (s ++ t) = (emit k fuel s).1 ++ chunks k ((emit k fuel s).2 ++ t) := by
  intro fuel
  induction fuel with
  | zero =>
    intro s t h
    have : s = [] := List.length_eq_zero_iff.mp (by omega)
    subst this
    exact ⟨hk, rfl⟩
  | succ fuel ih =>
    intro s t h
    rw [emit]
    split
    · rename_i hle
      have hne : s ++ t ≠ [] := by
        intro h0
        have := congrArg List.length h0
        simp only [List.length_append, List.length_nil] at this
        omega
      obtain ⟨h1, h2⟩ := ih (s.drop k) t (by rw [List.length_drop]; omega)
      refine ⟨h1, ?_⟩
      rw [chunks_cons hk hne, List.take_append_of_le_length hle, List.drop_append_of_le_length hle, h2]
      rfl
    · rename_i hlt
      exact ⟨by dsimp only; omega, rfl⟩

theorem noWs_of {s : Str} (hs : SpacesOnly s) (h : ' ' ∉ s) : ∀ c ∈ s, uws c = false := by
  intro c hc
  by_contra hcon
  have h1 : uws c = true := by cases hu : uws c <;> simp_all
  have := hs c hc h1
  subst this
  exact h hc

theorem chunks_short {α : Type} {k : Nat} (hk : 0 < k) {l : List α} (hne : l ≠ []) (h : l.length ≤ k) :
    chunks k l = [l] := by
  rw [chunks_cons hk hne, List.take_of_length_le h, List.drop_of_length_le h, chunks_nil]

theorem text8Loop_spec {k : Nat} (hk : 0 < k) : ∀ (bs : List Str) (s : List Str) (rest : Str), s.length < k →
    SpacesOnly rest → (∀ b ∈ bs, SpacesOnly b) → ' ' ∉ rest →
    text8Loop k s rest bs = chunks k (s ++ splitWs uws (rest ++ bs.flatten)) := by
  intro bs
  induction bs with
  | nil =>
    intro s rest hs hr _ hsp
    rw [List.flatten_nil, List.append_nil, text8Loop]
    have hlen : (splitWs uws rest).length ≤ 1 := by
      by_cases h0 : rest = []
      · subst h0; exact Nat.zero_le _
      · rw [splitWs_single h0 (noWs_of hr hsp)]; rfl
    split
    · rename_i h0; rw [h0, chunks_nil]
    · rename_i h0
      rw [chunks_short hk h0 (by rw [List.length_append]; omega)]
  | cons b bs ih =>
    intro s rest hs hr hb hsp
    have hrb : SpacesOnly (rest ++ b) := by
      intro c hc
      rcases List.mem_append.mp hc with h | h
      · exact hr c h
      · exact hb b List.mem_cons_self c h
    have hbs : ∀ b ∈ bs, SpacesOnly b := fun b hb' => hb b (List.mem_cons_of_mem _ hb')
    rw [text8Loop, List.flatten_cons, ← List.append_assoc]
    by_cases hin : ' ' ∈ rest ++ b
    · obtain ⟨pre, suf, he, hns⟩ := exists_last_space _ hin
      have hsuf : SpacesOnly suf := fun c hc => hrb c (by rw [he]; simp [hc])
      rw [he, cutLast_eq pre suf hns hsuf]
      dsimp only
      obtain ⟨h1, h2⟩ := emit_spec hk (s ++ splitWs uws pre).length (s ++ splitWs uws pre)
        (splitWs uws (suf ++ bs.flatten)) (le_refl _)
      rw [ih _ _ h1 hsuf hbs hns, ← h2, List.append_assoc, List.append_assoc pre, List.cons_append,
        splitWs_append (c := ' ') (by decide) pre]
    · have hc : cutLast (rest ++ b) = ([], rest ++ b) := by unfold cutLast; rw [if_neg hin]
      rw [hc]
      dsimp only
      rw [List.append_nil]
      obtain ⟨h1, h2⟩ := emit_spec hk s.length s (splitWs uws (rest ++ b ++ bs.flatten)) (le_refl _)
      rw [ih _ _ h1 hrb hbs hin, ← h2]

/-- **C33.** `Text8Corpus` yields the words of the file in order, in groups of `max_sentence_length`, wherever
the block reads split the file, for text whose only white space is the space. -/
theorem C33_text8 {k : Nat} (hk : 0 < k) (blocks : List Str) (h : SpacesOnly blocks.flatten) :
    text8 k blocks = chunks k (splitWs uws blocks.flatten) := by
  have := text8Loop_spec hk blocks [] [] hk (fun c hc => by simp at hc)
    (fun b hb c hc => h c (List.mem_flatten.mpr ⟨b, hb, hc⟩)) (by simp)
  simpa [text8] using this

/-- **C33.** Hence two ways of reading the same file give the same sentences. -/
theorem C33_block_size_irrelevant {k : Nat} (hk : 0 < k) (b1 b2 : List Str) (h : SpacesOnly b1.flatten)
    (heq : b1.flatten = b2.flatten) : text8 k b1 = text8 k b2 := by
  rw [C33_text8 hk b1 h, C33_text8 hk b2 (heq ▸ h), heq]

/-- with other white space it is wrong: a newline at the end of a block is stripped, merging two words -/
theorem C33_newline_at_block_end :
    text8 10 ["a b\n".toList, "c d".toList] = [["a".toList, "bc".toList, "d".toList]] ∧
    text8 10 ["a b\nc d".toList] = [["a".toList, "b".toList, "c".toList, "d".toList]] := by decide +kernel

example : text8 2 ["one tw".toList, "o three f".toList, "our  five".toList] =
    [["one".toList, "two".toList], ["three".toList, "four".toList], ["five".toList]] := by decide +kernel

theorem pieces_eq {α : Type} {k : Nat} (hk : 0 < k) (line : List α) : ∀ (fuel i : Nat), line.length ≤ i + fuel →
    pieces k line fuel i = chunks k (line.drop i) := by
  intro fuel
  induction fuel with
  | zero =>
    intro i h
    rw [List.drop_of_length_le (by omega), chunks_nil]; rfl
  | succ fuel ih =>
    intro i h
    rw [pieces]
    split
    · rename_i hi
      rw [chunks_cons hk (by intro h0; have := congrArg List.length h0; simp at this; omega),
        ih _ (by omega), List.drop_drop]
    · rw [List.drop_of_length_le (by omega), chunks_nil]

/-- **C33.** `LineSentence` yields, for the first `limit` lines, the words of each line in order, in pieces of
`max_sentence_length` (empty lines give nothing). -/
theorem C33_line_sentence {k : Nat} (hk : 0 < k) (limit : Option Nat) (text : Str) :
    lineSentences k limit text = ((pyLines text).take (limit.getD (pyLines text).length)).flatMap
      (fun line => chunks k (splitWs uws line)) := by
  have e : ∀ l : List Str, l.flatMap (fun line => pieces k (splitWs uws line) (splitWs uws line).length 0) =
      l.flatMap (fun line => chunks k (splitWs uws line)) := by
    intro l
    congr 1
    funext line
    rw [pieces_eq hk _ _ _ (by omega), List.drop_zero]
  unfold lineSentences
  cases limit with
  | none => simp only [Option.getD_none, List.take_length]; exact e _
  | some n => simp only [Option.getD_some]; exact e _

example : lineSentences 2 (some 2) "a b c\n\nd\n".toList = [["a".toList, "b".toList], ["c".toList]] := by
  decide +kernel

/-! ## C34 -/

/-- a line as sentences of at most `k` words; an empty line is one empty sentence -/
def asSentences {α : Type} (k : Nat) (line : List α) : List (List α) := if line = [] then [[]] else chunks k line

theorem chunkSentence_eq {α : Type} {k : Nat} (hk : 0 < k) (line : List α) :
    chunkSentence k line = asSentences k line := by
  unfold chunkSentence asSentences
  split
  · rename_i h
    rw [pieces_eq hk _ _ _ (by omega), List.drop_zero, if_neg (by rintro rfl; simp at h)]
  · rename_i h
    split
    · rename_i h0; rw [h0]
    · rename_i h0; rw [chunks_short hk h0 (by omega)]

theorem asSentences_flatten {α : Type} {k : Nat} (hk : 0 < k) (line : List α) : (asSentences k line).flatten = line := by
  unfold asSentences
  split
  · rename_i h; rw [h]; rfl
  · exact C15_concat hk line

theorem asSentences_length {α : Type} {k : Nat} (hk : 0 < k) (line : List α) :
    ∀ s ∈ asSentences k line, s.length ≤ k := by
  unfold asSentences
  split
  · simp
  · intro s hs
    exact ((C15_sizes hk line).1 s hs).2

theorem nwords_append {α : Type} (a b : List (List α)) : nwords (a ++ b) = nwords a + nwords b := by
  simp [nwords]

theorem nwords_take_succ {α : Type} (l : List (List α)) (n : Nat) :
    nwords (l.take (n + 1)) = nwords (l.take n) + (l.getD n []).length := by
  rw [List.take_add_one, nwords_append, List.getD_eq_getElem?_getD]
  cases l[n]? with
  | none => simp [nwords]
  | some x => simp [nwords]

theorem readMore_spec {α : Type} {k : Nat} (hk : 0 < k) : ∀ (rest batch : List (List α)),
    (readMore k batch rest).1 ++ (readMore k batch rest).2.flatMap (asSentences k) =
      batch ++ rest.flatMap (asSentences k) ∧
    ((readMore k batch rest).2 = [] ∨ k < nwords (readMore k batch rest).1) ∧
    (∃ more, (readMore k batch rest).1 = batch ++ more ∧ (∀ s ∈ more, s.length ≤ k)) ∧
    (batch ≠ [] ∨ rest ≠ [] → (readMore k batch rest).1 ≠ []) := by
  intro rest
  induction rest with
  | nil =>
    intro batch
    rw [readMore]
    exact ⟨rfl, .inl rfl, ⟨[], by simp, by simp⟩, fun h => h.resolve_right (by simp)⟩
  | cons line rest ih =>
    intro batch
    rw [readMore]
    split
    · obtain ⟨h1, h2, ⟨more, h3, h4⟩, h5⟩ := ih (batch ++ chunkSentence k line)
      refine ⟨?_, h2, ⟨chunkSentence k line ++ more, ?_, ?_⟩, ?_⟩
      · rw [h1, chunkSentence_eq hk, List.flatMap_cons, List.append_assoc]
      · rw [h3, List.append_assoc]
      · intro s hs
        rcases List.mem_append.mp hs with h | h
        · rw [chunkSentence_eq hk] at h
          exact asSentences_length hk line s h
        · exact h4 s h
      · intro _
        apply h5
        left
        rw [chunkSentence_eq hk]
        unfold asSentences
        split
        · simp
        · rename_i h0
          rw [chunks_cons hk h0]; simp
    · rename_i h
      refine ⟨rfl, .inr (by dsimp only; omega), ⟨[], by simp, by simp⟩, ?_⟩
      intro _ h0
      dsimp only at h0
      rw [h0] at h
      simp [nwords] at h

theorem lastIdx_spec {α : Type} (k : Nat) (l : List (List α)) : ∀ n, n ≤ l.length →
    lastIdx k l n (nwords (l.take n)) ≤ n ∧ (0 < n → 0 < lastIdx k l n (nwords (l.take n))) ∧
    nwords (l.take (lastIdx k l n (nwords (l.take n)) - 1)) ≤ k ∧
    ∀ j, lastIdx k l n (nwords (l.take n)) ≤ j → j < n → k < nwords (l.take j) := by
  intro n
  induction n with
  | zero => intro _; simp [lastIdx, nwords]
  | succ n ih =>
    intro hn
    have e : nwords (l.take (n + 1)) - (l.getD n []).length = nwords (l.take n) := by
      rw [nwords_take_succ]; omega
    rw [lastIdx, e]
    split
    · rename_i h
      refine ⟨le_refl _, fun _ => by omega, by simpa using h, fun j h1 h2 => by omega⟩
    · rename_i h
      obtain ⟨h1, h2, h3, h4⟩ := ih (by omega)
      refine ⟨by omega, fun _ => ?_, h3, ?_⟩
      · apply h2
        rcases Nat.eq_zero_or_pos n with h0 | h0
        · subst h0; simp [nwords] at h
        · exact h0
      · intro j hj1 hj2
        rcases Nat.lt_or_ge j n with h5 | h5
        · exact h4 j hj1 h5
        · have : j = n := by omega
          subst this
          omega

theorem nwords_dropLast_le {α : Type} (l : List (List α)) : nwords l.dropLast ≤ nwords l := by
  rcases List.eq_nil_or_concat l with h | ⟨a, x, h⟩
  · subst h; exact le_refl _
  · rw [h, List.concat_eq_append, List.dropLast_concat, nwords_append]; omega

/-- **C34.** One `next_batch`: the batch, then the new buffer, then the unread lines are what was there before,
in order; the batch is cut right after the sentence that crosses the word limit (without its last sentence it is
within the limit; with it, it is over the limit or nothing is left); there is progress. -/
theorem C34_next_batch {α : Type} {k : Nat} (hk : 0 < k) (r : Reader α) :
    (nextBatch k r).1 ++ (nextBatch k r).2.buf ++ (nextBatch k r).2.rest.flatMap (asSentences k) =
      r.buf ++ r.rest.flatMap (asSentences k) ∧
    nwords (nextBatch k r).1.dropLast ≤ k ∧
    (k < nwords (nextBatch k r).1 ∨ (nextBatch k r).2.buf = [] ∧ (nextBatch k r).2.rest = []) ∧
    (r.buf ≠ [] ∨ r.rest ≠ [] → (nextBatch k r).1 ≠ []) ∧
    ((∀ s ∈ r.buf, s.length ≤ k) →
      (∀ s ∈ (nextBatch k r).1, s.length ≤ k) ∧ (∀ s ∈ (nextBatch k r).2.buf, s.length ≤ k)) := by
  obtain ⟨h1, h2, ⟨more, h3, h4⟩, h5⟩ := readMore_spec hk r.rest r.buf
  have hall : (∀ s ∈ r.buf, s.length ≤ k) → ∀ s ∈ (readMore k r.buf r.rest).1, s.length ≤ k := by
    intro hb s hs
    rw [h3] at hs
    rcases List.mem_append.mp hs with h | h
    · exact hb s h
    · exact h4 s h
  unfold nextBatch
  dsimp only
  split
  · rename_i hov
    generalize hp : readMore k r.buf r.rest = p at *
    obtain ⟨j1, j2, j3, j4⟩ := lastIdx_spec k p.1 p.1.length (le_refl _)
    rw [List.take_length] at j1 j2 j3 j4
    dsimp only
    have hne : p.1 ≠ [] := by intro h0; rw [h0] at hov; simp [nwords] at hov
    have hpos := j2 (List.length_pos_of_ne_nil hne)
    refine ⟨by rw [List.take_append_drop]; exact h1, ?_, ?_, ?_, ?_⟩
    · rw [List.dropLast_eq_take, List.length_take, Nat.min_eq_left j1, List.take_take, Nat.min_eq_left (by omega)]
      exact j3
    · left
      rcases Nat.lt_or_ge (lastIdx k p.1 p.1.length (nwords p.1)) p.1.length with h | h
      · exact j4 _ (le_refl _) h
      · rw [List.take_of_length_le h]; exact hov
    · intro _ h0
      have := congrArg List.length h0
      rw [List.length_take, List.length_nil] at this
      omega
    · intro hb
      exact ⟨fun s hs => hall hb s (List.mem_of_mem_take hs), fun s hs => hall hb s (List.mem_of_mem_drop hs)⟩
  · rename_i hov
    dsimp only
    refine ⟨by rw [List.append_nil]; exact h1, ?_, ?_, h5, fun hb => ⟨hall hb, by simp⟩⟩
    · have := nwords_dropLast_le (readMore k r.buf r.rest).1; omega
    · right
      exact ⟨rfl, h2.resolve_right hov⟩

/-- all that is still to come, as sentences -/
def stream {α : Type} (k : Nat) (r : Reader α) : List (List α) := r.buf ++ r.rest.flatMap (asSentences k)

/-- **C34.** The training loop: the batches trained on, the sentences left in the buffer and the unread lines
are together exactly what was there, in order: nothing is trained on twice, nothing is skipped. -/
theorem C34_train_loop {α : Type} {k : Nat} (hk : 0 < k) (quota : Nat) : ∀ (fuel total : Nat) (r : Reader α),
    (trainLoop k quota fuel total r).1.flatten ++ stream k (trainLoop k quota fuel total r).2 = stream k r := by
  intro fuel
  induction fuel with
  | zero => intro total r; rfl
  | succ fuel ih =>
    intro total r
    rw [trainLoop]
    split
    · rfl
    · dsimp only
      rw [List.flatten_cons, List.append_assoc, ih]
      have := (C34_next_batch hk r).1
      unfold stream
      rw [← List.append_assoc]
      exact this

/-- **C34.** The loop stops after at most as many rounds as there are sentences, at the end of the file or when
the thread has its share of the words. -/
theorem C34_loop_stops {α : Type} {k : Nat} (hk : 0 < k) (quota : Nat) : ∀ (fuel total : Nat) (r : Reader α),
    (stream k r).length < fuel →
    (trainLoop k quota fuel total r).2.rest = [] ∨
      quota < total + nwords (trainLoop k quota fuel total r).1.flatten := by
  intro fuel
  induction fuel with
  | zero => intro total r h; omega
  | succ fuel ih =>
    intro total r h
    rw [trainLoop]
    split
    · rename_i hs
      rcases hs with hs | hs
      · exact .inl hs
      · right; simp [nwords]; omega
    · rename_i hs
      dsimp only
      obtain ⟨h1, _, _, h4, _⟩ := C34_next_batch hk r
      have hne := h4 (.inr (fun h0 => hs (.inl h0)))
      have hl : (stream k (nextBatch k r).2).length < (stream k r).length := by
        have := congrArg List.length h1
        unfold stream
        have hp := List.length_pos_of_ne_nil hne
        simp only [List.length_append] at this ⊢
        omega
      rcases ih (total + nwords (nextBatch k r).1) (nextBatch k r).2 (by omega) with h | h
      · exact .inl h
      · right
        rw [List.flatten_cons, nwords_append]
        omega

theorem readMore_short {α : Type} {k : Nat} (hk : 0 < k) : ∀ (rest batch : List (List α)),
    (∀ l ∈ rest, l.length ≤ k) → nwords batch.dropLast ≤ k →
    nwords (readMore k batch rest).1.dropLast ≤ k ∧ (∀ l ∈ (readMore k batch rest).2, l.length ≤ k) := by
  intro rest
  induction rest with
  | nil => intro batch _ h; exact ⟨h, by simp [readMore]⟩
  | cons line rest ih =>
    intro batch hl hb
    rw [readMore]
    split
    · rename_i hle
      apply ih _ (fun l h => hl l (List.mem_cons_of_mem _ h))
      unfold chunkSentence
      rw [if_neg (by have := hl line List.mem_cons_self; omega), List.dropLast_concat]
      exact hle
    · exact ⟨hb, hl⟩

theorem nextBatch_short {α : Type} {k : Nat} (hk : 0 < k) (rest : List (List α)) (h : ∀ l ∈ rest, l.length ≤ k) :
    (nextBatch k ⟨rest, []⟩).2.buf = [] ∧ ∀ l ∈ (nextBatch k ⟨rest, []⟩).2.rest, l.length ≤ k := by
  obtain ⟨h1, h2⟩ := readMore_short hk rest [] h (by simp [nwords])
  unfold nextBatch
  dsimp only
  split
  · rename_i hov
    generalize hp : readMore k [] rest = p at *
    dsimp only
    obtain ⟨j1, j2, j3, j4⟩ := lastIdx_spec k p.1 p.1.length (le_refl _)
    rw [List.take_length] at j1 j2 j3 j4
    refine ⟨?_, h2⟩
    apply List.drop_of_length_le
    by_contra hcon
    have := j4 (p.1.length - 1) (by omega) (by omega)
    rw [← List.dropLast_eq_take] at this
    omega
  · exact ⟨rfl, h2⟩

/-- **C34.** If no line is longer than the limit and the thread's share covers the file, everything is trained
on. -/
theorem C34_complete {α : Type} {k : Nat} (hk : 0 < k) (quota fuel : Nat) (lines : List (List α))
    (hl : ∀ l ∈ lines, l.length ≤ k) (hq : nwords lines ≤ quota) (hf : lines.length < fuel) :
    (trainLoop k quota fuel 0 ⟨lines, []⟩).1.flatten = lines := by
  have hsplit : ∀ ls : List (List α), (∀ l ∈ ls, l.length ≤ k) → ls.flatMap (asSentences k) = ls := by
    intro ls
    induction ls with
    | nil => intro _; rfl
    | cons l ls ih =>
      intro h
      rw [List.flatMap_cons, ih (fun x hx => h x (List.mem_cons_of_mem _ hx)), ← chunkSentence_eq hk]
      unfold chunkSentence
      rw [if_neg (by have := h l List.mem_cons_self; omega)]
      rfl
  have hbuf : ∀ (fuel total : Nat) (rest : List (List α)), (∀ l ∈ rest, l.length ≤ k) →
      (trainLoop k quota fuel total ⟨rest, []⟩).2.buf = [] ∧
      ∀ l ∈ (trainLoop k quota fuel total ⟨rest, []⟩).2.rest, l.length ≤ k := by
    intro fuel
    induction fuel with
    | zero => intro total rest h; exact ⟨rfl, h⟩
    | succ fuel ih =>
      intro total rest h
      rw [trainLoop]
      split
      · exact ⟨rfl, h⟩
      · dsimp only
        obtain ⟨h1, h2⟩ := nextBatch_short hk rest h
        have e : (nextBatch k ⟨rest, []⟩).2 = ⟨(nextBatch k ⟨rest, []⟩).2.rest, []⟩ := by
          cases hb : (nextBatch k ⟨rest, []⟩).2 with
          | mk a b => rw [hb] at h1; dsimp only at h1; subst h1; rfl
        rw [e]
        exact ih _ _ h2
  have hst : stream k ⟨lines, []⟩ = lines := by
    unfold stream; rw [List.nil_append]; exact hsplit lines hl
  have h1 := C34_train_loop hk quota fuel 0 ⟨lines, []⟩
  rw [hst] at h1
  obtain ⟨h2, h3⟩ := hbuf fuel 0 lines hl
  rcases C34_loop_stops hk quota fuel 0 ⟨lines, []⟩ (by rw [hst]; exact hf) with h4 | h4
  · unfold stream at h1
    rw [h2, h4] at h1
    simpa using h1
  · have h5 := congrArg nwords h1
    rw [nwords_append] at h5
    omega

/-- otherwise the end of the data may be lost: the loop stops at the end of the file although the last pieces of
a line that is longer than the limit are still buffered -/
theorem C34_buffer_lost : trainLoop 2 100 10 0 (⟨[[1, 2, 3, 4, 5]], []⟩ : Reader Nat) =
    ([[[1, 2], [3, 4]]], ⟨[], [[5]]⟩) := by decide +kernel

theorem splitOn_words_aux {ws : Char → Bool} {c : Char} (hc : ws c = true) : ∀ (s cur : Str),
    ∃ h t, splitOn c s = h :: t ∧ splitWsAux ws cur s = splitWsAux ws cur h ++ (t.map (splitWs ws)).flatten := by
  intro s
  induction s with
  | nil => intro cur; exact ⟨[], [], rfl, by simp⟩
  | cons x xs ih =>
    intro cur
    by_cases hx : x = c
    · subst hx
      obtain ⟨h, t, h1, h2⟩ := ih []
      refine ⟨[], h :: t, by rw [splitOn, if_pos rfl, h1], ?_⟩
      rw [List.map_cons, List.flatten_cons, splitWs, ← h2]
      simp only [splitWsAux, hc, if_true]
      split
      · rfl
      · rfl
    · by_cases hw : ws x = true
      · obtain ⟨h, t, h1, h2⟩ := ih []
        refine ⟨x :: h, t, by rw [splitOn, if_neg hx, h1], ?_⟩
        simp only [splitWsAux, hw, if_true]
        split
        · exact h2
        · rw [h2]; rfl
      · obtain ⟨h, t, h1, h2⟩ := ih (cur ++ [x])
        refine ⟨x :: h, t, by rw [splitOn, if_neg hx, h1], ?_⟩
        simp only [splitWsAux, if_neg hw]
        exact h2

/-- **C34.** The lines the C++ reader delivers contain exactly the words of the text, in order. -/
theorem C34_lines (text : Str) : (fastLines text).flatten = splitWs bws text := by
  obtain ⟨h, t, h1, h2⟩ := splitOn_words_aux (ws := bws) (c := '\n') (by decide) text []
  unfold fastLines splitWs
  rw [h2, h1]
  rfl

/-- **C34, in words of the file.** The words trained on, the words left in the buffer and the words of the
unread lines are the words of the text from the thread's offset on. -/
theorem C34_words {k : Nat} (hk : 0 < k) (quota fuel : Nat) (text : Str) :
    let t := trainLoop k quota fuel 0 ⟨fastLines text, []⟩
    t.1.flatten.flatten ++ t.2.buf.flatten ++ t.2.rest.flatten = splitWs bws text := by
  have hf : ∀ ls : List (List Str), (ls.flatMap (asSentences k)).flatten = ls.flatten := by
    intro ls
    induction ls with
    | nil => rfl
    | cons l ls ih => rw [List.flatMap_cons, List.flatten_append, asSentences_flatten hk, ih, List.flatten_cons]
  have := congrArg List.flatten (C34_train_loop hk quota fuel 0 (⟨fastLines text, []⟩ : Reader Str))
  unfold stream at this
  simp only [List.flatten_append, hf, List.flatten_nil, List.nil_append, C34_lines] at this
  dsimp only
  rw [← this, List.append_assoc]

example : trainLoop 3 100 10 0 ⟨fastLines "a b\nc d e f\n\ng\n".toList, []⟩ =
    ([[["a".toList, "b".toList], ["c".toList, "d".toList, "e".toList]],
      [["f".toList], [], ["g".toList], []]], ⟨[], []⟩) := by decide +kernel

/-- In corpus_file mode the threads of Word2Vec do not share out the file exactly: a thread may start inside a word
(here at "ello"), words may be trained on by two threads, ... -/
theorem C34_threads_overlap : epochWords 10 2 2 10 "hi hello\n".toList =
    [["hi".toList, "hello".toList], ["ello".toList]] := by decide +kernel

/-- ... and words between the end of one thread's share and the start of the next may be trained on by no thread
(here two of the six "a") -/
theorem C34_threads_gap : epochWords 1 2 7 20 "a\na\na\na\na\na\nbbbbbbbbbbb\n".toList =
    [["a".toList, "a".toList, "a".toList, "a".toList], ["bbbbbbbbbbb".toList]] := by decide +kernel

/-- **C34.** With one thread, and lines within the limit, every word is trained on exactly once. -/
theorem C34_single_thread {k : Nat} (hk : 0 < k) (fuel : Nat) (text : Str)
    (hl : ∀ l ∈ fastLines text, l.length ≤ k) (hf : (fastLines text).length < fuel) :
    epochWords k 1 (splitWs bws text).length fuel text = [splitWs bws text] := by
  unfold epochWords
  have hq : nwords (fastLines text) ≤ (splitWs bws text).length / 1 := by
    rw [Nat.div_one, ← C34_lines, List.length_flatten]; exact le_refl _
  simp only [List.range_one, List.map_cons, List.map_nil, Nat.mul_zero, Nat.zero_div, List.drop_zero]
  rw [C34_complete hk _ fuel _ hl hq hf, C34_lines]

/-! ## C36 -/

/-- the file position where line number `n` starts -/
def lineStart (lines : List Str) (n : Nat) : Nat := ((lines.take n).map List.length).sum

/-- `(off, n)` names the line that contains file position `a` -/
def LineOf (lines : List Str) (a : Nat) (o : Nat × Nat) : Prop :=
  ∃ line, lines[o.2]? = some line ∧ o.1 = lineStart lines o.2 ∧ o.1 ≤ a ∧ a < o.1 + line.length

theorem lineStart_succ (lines : List Str) (n : Nat) (line : Str) (h : lines[n]? = some line) :
    lineStart lines (n + 1) = lineStart lines n + line.length := by
  unfold lineStart
  rw [List.take_add_one, h]
  simp

theorem lineStart_mono (lines : List Str) {n m : Nat} (h : n ≤ m) : lineStart lines n ≤ lineStart lines m := by
  induction m with
  | zero => have : n = 0 := by omega
            subst this; exact le_refl _
  | succ m ih =>
    rcases Nat.lt_or_ge n (m + 1) with h1 | h1
    · have := ih (by omega)
      cases hm : lines[m]? with
      | none =>
        have : lineStart lines (m + 1) = lineStart lines m := by
          unfold lineStart; rw [List.take_add_one, hm]; simp
        omega
      | some l => have := lineStart_succ lines m l hm; omega
    · have : n = m + 1 := by omega
      subst this; exact le_refl _

theorem serve_spec (lines : List Str) (n : Nat) (line : Str) (h : lines[n]? = some line) : ∀ approx : List Nat,
    approx.Pairwise (· ≤ ·) → (∀ a ∈ approx, lineStart lines n ≤ a) →
    ∃ done, approx = done ++ (serve (lineStart lines n + line.length) (lineStart lines n) n approx).1 ∧
      List.Forall₂ (LineOf lines) done (serve (lineStart lines n + line.length) (lineStart lines n) n approx).2 ∧
      ∀ a ∈ (serve (lineStart lines n + line.length) (lineStart lines n) n approx).1,
        lineStart lines n + line.length ≤ a := by
  intro approx
  induction approx with
  | nil => intro _ _; exact ⟨[], rfl, .nil, by simp [serve]⟩
  | cons a as ih =>
    intro hp hge
    obtain ⟨hpa, hps⟩ := List.pairwise_cons.mp hp
    rw [serve]
    split
    · rename_i hlt
      obtain ⟨done, h1, h2, h3⟩ := ih hps (fun x hx => hge x (List.mem_cons_of_mem _ hx))
      refine ⟨a :: done, ?_, ?_, h3⟩
      · rw [List.cons_append, ← h1]
      · exact .cons ⟨line, h, rfl, hge a List.mem_cons_self, hlt⟩ h2
    · rename_i hge'
      refine ⟨[], rfl, .nil, ?_⟩
      intro x hx
      rcases List.mem_cons.mp hx with rfl | hx
      · omega
      · have := hpa x hx; omega

theorem offsetLoop_spec (all : List Str) : ∀ (lines : List Str) (n : Nat) (approx : List Nat), all.drop n = lines →
    approx.Pairwise (· ≤ ·) → (∀ a ∈ approx, lineStart all n ≤ a ∧ a < lineStart all n + lines.flatten.length) →
    List.Forall₂ (LineOf all) approx (offsetLoop n (lineStart all n) approx lines) := by
  intro lines
  induction lines with
  | nil =>
    intro n approx _ _ ha
    cases approx with
    | nil => exact .nil
    | cons a as =>
      have := ha a List.mem_cons_self
      simp at this
      omega
  | cons line lines ih =>
    intro n approx hd hp ha
    rw [offsetLoop]
    split
    · rename_i h0; subst h0; exact .nil
    · dsimp only
      have hn : all[n]? = some line := by
        have := congrArg (fun l => l[0]?) hd
        simpa using this
      have hd' : all.drop (n + 1) = lines := by
        rw [← List.drop_drop, hd]; rfl
      obtain ⟨done, h1, h2, h3⟩ := serve_spec all n line hn approx hp (fun a h => (ha a h).1)
      generalize serve (lineStart all n + line.length) (lineStart all n) n approx = sv at *
      rw [h1] at hp ha ⊢
      refine List.rel_append h2 ?_
      rw [← lineStart_succ all n line hn] at h3 ⊢
      apply ih (n + 1) _ hd' (List.pairwise_append.mp hp).2.1
      intro a h
      refine ⟨h3 a h, ?_⟩
      have := (ha a (List.mem_append_right _ h)).2
      rw [List.flatten_cons, List.length_append] at this
      rw [lineStart_succ all n line hn]
      omega

theorem pyLines_ne_nil (s : Str) : ∀ l ∈ pyLines s, l ≠ [] := by
  induction s with
  | nil => simp [pyLines]
  | cons x xs ih =>
    rw [pyLines]
    split
    · intro l hl
      rcases List.mem_cons.mp hl with rfl | hl
      · simp
      · exact ih l hl
    · split
      · simp
      · rename_i h t e
        intro l hl
        rcases List.mem_cons.mp hl with rfl | hl
        · simp
        · exact ih l (by rw [e]; exact List.mem_cons_of_mem _ hl)

/-- **C36.** For a non-empty file every worker gets a line start together with the number of that line: the
line that contains the worker's share of the file size. -/
theorem C36_offsets (text : Str) (workers : Nat) (hne : text ≠ []) :
    List.Forall₂ (LineOf (pyLines text)) ((List.range workers).map (fun i => text.length / workers * i))
      (fileOffsets text workers) := by
  have hlen := List.length_pos_of_ne_nil hne
  have e0 : lineStart (pyLines text) 0 = 0 := rfl
  have key := offsetLoop_spec (pyLines text) (pyLines text) 0 (approxOffsets text.length workers) rfl
  rw [e0] at key
  apply key
  · unfold approxOffsets
    rw [List.pairwise_map]
    apply List.pairwise_lt_range.imp
    intro a b hab
    exact Nat.mul_le_mul_left _ (le_of_lt hab)
  · intro a ha
    unfold approxOffsets at ha
    obtain ⟨i, hi, rfl⟩ := List.mem_map.mp ha
    have hi := List.mem_range.mp hi
    refine ⟨Nat.zero_le _, ?_⟩
    rw [pyLines_flatten_id, Nat.zero_add]
    rcases Nat.eq_zero_or_pos (text.length / workers) with h0 | h0
    · rw [h0]; omega
    · have h1 : text.length / workers * i < text.length / workers * workers := Nat.mul_lt_mul_of_pos_left hi h0
      have h2 := Nat.div_mul_le_self text.length workers
      omega

/-- **C36.** There is one offset per worker, they do not decrease (nor do the line numbers), the first worker
starts at the beginning of the file. -/
theorem C36_order (text : Str) (workers : Nat) (hne : text ≠ []) (hw : 0 < workers) :
    (fileOffsets text workers).length = workers ∧ (fileOffsets text workers)[0]? = some (0, 0) ∧
    (fileOffsets text workers).Pairwise (fun o p => o.1 ≤ p.1 ∧ o.2 ≤ p.2) := by
  have h := C36_offsets text workers hne
  have hl := h.length_eq
  rw [List.length_map, List.length_range] at hl
  have hmono : ∀ (a b : Nat) (o p : Nat × Nat), a ≤ b → LineOf (pyLines text) a o → LineOf (pyLines text) b p →
      o.1 ≤ p.1 ∧ o.2 ≤ p.2 := by
    rintro a b o p hab ⟨l1, ho1, ho2, ho3, ho4⟩ ⟨l2, hp1, hp2, hp3, hp4⟩
    have hle : o.2 ≤ p.2 := by
      by_contra hcon
      have := lineStart_mono (pyLines text) (show p.2 + 1 ≤ o.2 by omega)
      rw [lineStart_succ _ _ _ hp1] at this
      omega
    exact ⟨by rw [ho2, hp2]; exact lineStart_mono _ hle, hle⟩
  refine ⟨hl.symm, ?_, ?_⟩
  · obtain ⟨w, rfl⟩ : ∃ w, workers = w + 1 := ⟨workers - 1, by omega⟩
    generalize fileOffsets text (w + 1) = fo at *
    rw [List.range_succ_eq_map, List.map_cons] at h
    cases h with
    | @cons _ o _ os hh _ =>
      obtain ⟨line, h1, h2, h3, h4⟩ := hh
      rw [List.getElem?_cons_zero]
      have h5 : o.1 = 0 := by omega
      have h6 : o.2 = 0 := by
        by_contra hcon
        have hm := lineStart_mono (pyLines text) (show 1 ≤ o.2 by omega)
        cases hp : (pyLines text)[0]? with
        | none =>
          have := List.getElem?_eq_none_iff.mp hp
          have h7 := (List.getElem?_eq_some_iff.mp h1).1
          omega
        | some l0 =>
          have h8 : lineStart (pyLines text) 1 = _ := lineStart_succ _ _ _ hp
          have h9 := List.length_pos_of_ne_nil (pyLines_ne_nil text l0 (List.mem_of_getElem? hp))
          omega
      rw [← h5]
      congr 1
      exact Prod.ext rfl (by rw [h6, h5])
  · have hs : ((List.range workers).map (fun i => text.length / workers * i)).Pairwise (· ≤ ·) := by
      rw [List.pairwise_map]
      apply List.pairwise_lt_range.imp
      intro a b hab
      exact Nat.mul_le_mul_left _ (le_of_lt hab)
    generalize (List.range workers).map (fun i => text.length / workers * i) = as at *
    generalize fileOffsets text workers = os at *
    clear hl
    induction h with
    | nil => exact .nil
    | @cons a o as os hh ht ih =>
      obtain ⟨hs1, hs2⟩ := List.pairwise_cons.mp hs
      refine List.pairwise_cons.mpr ⟨?_, ih hs2⟩
      intro p hp
      obtain ⟨i, hi, hip⟩ := List.getElem_of_mem hp
      have hia : i < as.length := by rw [ht.length_eq]; exact hi
      have := (List.forall₂_iff_get.mp ht).2 i hia hi
      exact hmono a as[i] o p (hs1 _ (List.getElem_mem hia)) hh (by rw [← hip]; exact this)

/-- an empty file gives no offsets at all -/
theorem C36_empty (workers : Nat) : fileOffsets [] workers = [] := rfl

example : fileOffsets "ab\ncdefg\nh\nij\n".toList 4 = [(0, 0), (3, 1), (3, 1), (9, 2)] := by decide +kernel

end Verif.W2V
