import Mathlib.Data.List.Basic
import Mathlib.Data.List.Nodup
import Mathlib.Tactic.SplitIfs
import Verif.W2V.ReadersProps
import Verif.W2V.DirModel

/-!
# C122: readers of directories, of open files and of tagged documents
-/

namespace Verif.Readers

open Verif Verif.Text Verif.W2V Verif.Chunk

/-! ### Open files -/

/-- the first lines, if there is a limit -/
def upTo : Option Nat → List Str → List Str
  | none, l => l
  | some n, l => l.take n

/-- what is still to come -/
def toCome (k : Nat) (pending : List (List Str)) (left : Option Nat) (rest : List Str) : List (List Str) :=
  pending ++ (upTo left rest).flatMap (fun line => pieces k (splitWs uws line) (splitWs uws line).length 0)

theorem pull_spec (k : Nat) : ∀ (rest : List Str) (pending : List (List Str)) (left : Option Nat),
    (toCome k pending left rest = [] ∧ (pull k pending left rest).1 = none) ∨
    ∃ s p' l' r', pull k pending left rest = (some s, .running p' l', r') ∧
      toCome k pending left rest = s :: toCome k p' l' r' := by
  intro rest
  induction rest with
  | nil =>
    intro pending left
    cases pending with
    | nil =>
      left
      rcases left with _ | n
      · simp [toCome, upTo, pull]
      · cases n <;> simp [toCome, upTo, pull]
    | cons s p => right; exact ⟨s, p, left, [], by rw [pull], rfl⟩
  | cons line rest ih =>
    intro pending left
    cases pending with
    | cons s p => right; exact ⟨s, p, left, line :: rest, by rw [pull], rfl⟩
    | nil =>
      rcases left with _ | n
      · rw [pull]
        · simp only [dec]
          have e : toCome k [] none (line :: rest) =
              toCome k (pieces k (splitWs uws line) (splitWs uws line).length 0) none rest := by
            simp [toCome, upTo]
          rw [e]
          exact ih _ _
        · simp
      · cases n with
        | zero => left; simp [toCome, upTo, pull]
        | succ n =>
          rw [pull]
          · simp only [dec, Nat.add_sub_cancel]
            have e : toCome k [] (some (n + 1)) (line :: rest) =
                toCome k (pieces k (splitWs uws line) (splitWs uws line).length 0) (some n) rest := by
              simp [toCome, upTo]
            rw [e]
            exact ih _ _
          · simp

theorem nexts_running (k : Nat) (limit : Option Nat) (all : List Str) : ∀ (n : Nat) (rest : List Str)
    (p : List (List Str)) (left : Option Nat),
    nexts k limit all n rest (.running p left) = (toCome k p left rest).take n := by
  intro n
  induction n with
  | zero => intro rest p left; simp [nexts]
  | succ n ih =>
    intro rest p left
    rw [nexts]
    simp only [next]
    rcases pull_spec k rest p left with ⟨h1, h2⟩ | ⟨s, p', l', r', h1, h2⟩
    · rw [h1]
      generalize pull k p left rest = q at h2
      obtain ⟨a, b, c⟩ := q
      simp only at h2
      subst h2
      simp
    · rw [h1, h2]
      simp [ih]

/-- **C122.** Whatever has been read from an open file before, the first `n` sentences of a new iterator over it are
the first `n` sentences of the file: every epoch gives the same ones. -/
theorem C122_rewind {k : Nat} (hk : 0 < k) (limit : Option Nat) (text : Str) (position : List Str) (n : Nat) :
    nexts k limit (pyLines text) n position .fresh =
      (((pyLines text).take (limit.getD (pyLines text).length)).flatMap
        (fun line => chunks k (splitWs uws line))).take n := by
  rw [← C33_line_sentence hk limit text]
  have : nexts k limit (pyLines text) n position .fresh =
      nexts k limit (pyLines text) n (pyLines text) (.running [] limit) := by
    cases n with
    | zero => rfl
    | succ n => rw [nexts, nexts]; rfl
  rw [this, nexts_running]
  unfold toCome lineSentences upTo
  cases limit <;> simp

example : nexts 2 (some 2) (pyLines "a b c\n\nd\n".toList) 9 [] .fresh = [["a".toList, "b".toList], ["c".toList]] := by
  rw [C122_rewind (by decide)]
  decide +kernel

/-- **C122, finding.** Two iterators over one open file disturb each other: beginning the second one while the first
one is under way makes the first yield a sentence twice, and the second misses it. -/
theorem C122_interleaved_broken :
    let call := interleave 9 none (pyLines "a\nb\nc\n".toList)
    call [true, true, false, true, false, true] [] .fresh .fresh =
      [some ["a".toList], some ["b".toList], some ["a".toList], some ["b".toList], some ["c".toList], none] := by
  have e : pyLines "a\nb\nc\n".toList = ["a\n".toList, "b\n".toList, "c\n".toList] := by decide +kernel
  have ha : ∀ l r, pull 9 [] none (l :: r) = pull 9 (pieces 9 (splitWs uws l) (splitWs uws l).length 0) none r := by
    intro l r; rw [pull]; rfl; simp
  have h1 : pieces 9 (splitWs uws "a\n".toList) (splitWs uws "a\n".toList).length 0 = [["a".toList]] := by
    decide +kernel
  have h2 : pieces 9 (splitWs uws "b\n".toList) (splitWs uws "b\n".toList).length 0 = [["b".toList]] := by
    decide +kernel
  have h3 : pieces 9 (splitWs uws "c\n".toList) (splitWs uws "c\n".toList).length 0 = [["c".toList]] := by
    decide +kernel
  have hs : ∀ s p l r, pull 9 (s :: p) l r = (some s, .running p l, r) := by
    intro s p l r; rw [pull]
  have hn : pull 9 [] none [] = (none, .running [] none, []) := by rw [pull]; simp
  simp only [e, interleave, next, ha, h1, h2, h3, hs, hn]

/-! ### Directories -/

theorem strLe_refl (a : Str) : strLe a a = true := by
  induction a with
  | nil => rfl
  | cons x a ih => simp [strLe, ih]

theorem strLe_total (a b : Str) : strLe a b = true ∨ strLe b a = true := by
  induction a generalizing b with
  | nil => left; rfl
  | cons x a ih =>
    cases b with
    | nil => right; rfl
    | cons y b =>
      simp only [strLe, Bool.or_eq_true, Bool.and_eq_true, decide_eq_true_eq, beq_iff_eq]
      rcases lt_trichotomy x.toNat y.toNat with h | h | h
      · exact .inl (.inl h)
      · rcases ih b with h' | h'
        · exact .inl (.inr ⟨h, h'⟩)
        · exact .inr (.inr ⟨h.symm, h'⟩)
      · exact .inr (.inl h)

theorem strLe_trans {a b c : Str} (h : strLe a b = true) (h' : strLe b c = true) : strLe a c = true := by
  induction a generalizing b c with
  | nil => rfl
  | cons x a ih =>
    cases b with
    | nil => simp [strLe] at h
    | cons y b =>
      cases c with
      | nil => simp [strLe] at h'
      | cons z c =>
        simp only [strLe, Bool.or_eq_true, Bool.and_eq_true, decide_eq_true_eq, beq_iff_eq] at h h' ⊢
        rcases h with h | ⟨h, h2⟩ <;> rcases h' with h' | ⟨h', h2'⟩
        · exact .inl (h.trans h')
        · exact .inl (by omega)
        · exact .inl (by omega)
        · exact .inr ⟨h.trans h', ih h2 h2'⟩

theorem strLe_antisymm {a b : Str} (h : strLe a b = true) (h' : strLe b a = true) : a = b := by
  induction a generalizing b with
  | nil =>
    cases b with
    | nil => rfl
    | cons y b => simp [strLe] at h'
  | cons x a ih =>
    cases b with
    | nil => simp [strLe] at h
    | cons y b =>
      simp only [strLe, Bool.or_eq_true, Bool.and_eq_true, decide_eq_true_eq, beq_iff_eq] at h h'
      have hxy : x.toNat = y.toNat := by omega
      have : x = y := Char.ext (by
        have : x.val.toNat = y.val.toNat := hxy
        exact UInt32.toNat_inj.mp this)
      subst this
      rw [ih (by rcases h with h | h; omega; exact h.2) (by rcases h' with h | h; omega; exact h.2)]

theorem strLe_prefix (p a b : Str) : strLe (p ++ a) (p ++ b) = strLe a b := by
  induction p with
  | nil => rfl
  | cons x p ih => simp [strLe, ih]


/-- The order of Python's strings: a name comes before those it is the beginning of, and otherwise the first place
where two names differ decides, by code point. -/
def NameLe (a b : Str) : Prop :=
  (∃ t, b = a ++ t) ∨ ∃ p x y s t, a = p ++ x :: s ∧ b = p ++ y :: t ∧ x.toNat < y.toNat

theorem strLe_iff (a b : Str) : strLe a b = true ↔ NameLe a b := by
  constructor
  · intro h
    induction a generalizing b with
    | nil => exact .inl ⟨b, rfl⟩
    | cons x a ih =>
      cases b with
      | nil => simp [strLe] at h
      | cons y b =>
        simp only [strLe, Bool.or_eq_true, Bool.and_eq_true, decide_eq_true_eq, beq_iff_eq] at h
        rcases h with h | ⟨h, h'⟩
        · exact .inr ⟨[], x, y, a, b, rfl, rfl, h⟩
        · have : x = y := Char.ext (UInt32.toNat_inj.mp h)
          subst this
          rcases ih b h' with ⟨t, rfl⟩ | ⟨p, u, v, s, t, rfl, rfl, hlt⟩
          · exact .inl ⟨t, rfl⟩
          · exact .inr ⟨x :: p, u, v, s, t, rfl, rfl, hlt⟩
  · rintro (⟨t, rfl⟩ | ⟨p, x, y, s, t, rfl, rfl, hlt⟩)
    · have := strLe_prefix a [] t
      rw [List.append_nil] at this
      rw [this]
      rfl
    · rw [strLe_prefix]
      simp [strLe, hlt]

/-- Names in the order in which Python sorts them. -/
def SortedNames (l : List Str) : Prop := l.Pairwise NameLe

theorem inputFiles_dir (fs : Str → Node) (source : Str) (names sorted : List Str)
    (hd : fs source = .dir names) (hp : sorted.Perm names) (hs : SortedNames sorted) :
    inputFiles fs source = .ok (sorted.map (fun n => pathJoin source [] ++ n)) := by
  unfold inputFiles
  rw [hd]
  simp only
  congr 1
  refine sorted_perm_unique (le := strLe) ?_ (fun a _ b _ => strLe_antisymm)
    (pySort_sorted strLe_total (fun a b c => strLe_trans) _) ?_
  · exact (pySort_perm _ _).trans (hp.symm.map _)
  · rw [List.pairwise_map]
    exact hs.imp (fun {a b} h => by rw [strLe_prefix]; exact (strLe_iff a b).mpr h)

theorem pathJoin_nil (d n : Str) : pathJoin d [] ++ n = pathJoin d n := by
  unfold pathJoin
  split <;> simp

theorem pathIter_files (fs : Str → Node) (k : Nat) (limit : Option Nat) (paths : List Str) (text : Str → Str)
    (rest : List Str) (h : ∀ p ∈ paths, fs p = .file (text p)) :
    pathIter fs k limit (paths ++ rest) =
      (paths.flatMap (fun p => lineSentences k limit (text p)) ++ (pathIter fs k limit rest).1,
        (pathIter fs k limit rest).2) := by
  induction paths with
  | nil => simp
  | cons p ps ih =>
    rw [List.cons_append, pathIter, h p (by simp)]
    simp only
    rw [ih (fun q hq => h q (by simp [hq]))]
    simp

/-- **C122.** Over a directory of files, `PathLineSentences` yields the sentences of the files in the order of their
names, whatever the order in which the system lists them: for each file its first `limit` lines (the limit is for
each file), each cut into pieces of `max_sentence_length` words. -/
theorem C122_path_directory {k : Nat} (hk : 0 < k) (limit : Option Nat) (fs : Str → Node) (source : Str)
    (names sorted : List Str) (text : Str → Str) (hd : fs source = .dir names) (hp : sorted.Perm names)
    (hs : SortedNames sorted) (hf : ∀ n ∈ names, fs (pathJoin source n) = .file (text n)) :
    ∃ files, inputFiles fs source = .ok files ∧
      pathIter fs k limit files =
        (sorted.flatMap (fun n => ((pyLines (text n)).take (limit.getD (pyLines (text n)).length)).flatMap
          (fun line => chunks k (splitWs uws line))), none) := by
  refine ⟨_, inputFiles_dir fs source names sorted hd hp hs, ?_⟩
  have key : ∀ l : List Str, (∀ n ∈ l, n ∈ names) →
      pathIter fs k limit (l.map (fun n => pathJoin source [] ++ n)) =
        (l.flatMap (fun n => lineSentences k limit (text n)), none) := by
    intro l
    induction l with
    | nil => intro _; rfl
    | cons n l ih =>
      intro h
      rw [List.map_cons, pathIter, pathJoin_nil, hf n (h n (by simp))]
      simp only
      rw [ih (fun m hm => h m (by simp [hm]))]
      simp
  rw [key sorted (fun n hn => hp.mem_iff.mp hn)]
  simp only [C33_line_sentence hk]

/-- **C122.** The order in which the system lists a directory does not matter. -/
theorem C122_path_listing (fs fs' : Str → Node) (source : Str) (names names' : List Str)
    (h : fs source = .dir names) (h' : fs' source = .dir names') (hp : names.Perm names') :
    inputFiles fs source = inputFiles fs' source := by
  have hs : SortedNames (pySort strLe names) :=
    (pySort_sorted strLe_total (fun a b c => strLe_trans) names).imp (fun {a b} h => (strLe_iff a b).mp h)
  rw [inputFiles_dir fs source names (pySort strLe names) h (pySort_perm _ _) hs,
    inputFiles_dir fs' source names' (pySort strLe names) h' ((pySort_perm _ _).trans hp) hs]

/-- **C122.** For a single file, `PathLineSentences` is `LineSentence`; for a path that is neither a file nor a
directory, making it is a `ValueError`. -/
theorem C122_path_other (k : Nat) (limit : Option Nat) (fs : Str → Node) (source : Str) :
    (∀ text, fs source = .file text → ∃ files, inputFiles fs source = .ok files ∧
      pathIter fs k limit files = (lineSentences k limit text, none)) ∧
    (fs source = .missing → inputFiles fs source = .error .value) := by
  constructor
  · intro text h
    refine ⟨[source], by simp [inputFiles, h], ?_⟩
    simp [pathIter, h]
  · intro h
    simp [inputFiles, h]

/-- **C122.** If a directory contains a directory (or a file disappears after the reader was made), the sentences of
exactly the files before it in the order of the names are yielded, and then the iteration fails. -/
theorem C122_path_subdirectory (k : Nat) (limit : Option Nat) (fs : Str → Node) (before after : List Str) (bad : Str)
    (text : Str → Str) (hf : ∀ p ∈ before, fs p = .file (text p)) :
    (∀ ns, fs bad = .dir ns → pathIter fs k limit (before ++ bad :: after) =
      (before.flatMap (fun p => lineSentences k limit (text p)), some .isDir)) ∧
    (fs bad = .missing → pathIter fs k limit (before ++ bad :: after) =
      (before.flatMap (fun p => lineSentences k limit (text p)), some .notFound)) := by
  constructor
  · intro ns h
    rw [pathIter_files fs k limit before text _ hf]
    simp [pathIter, h]
  · intro h
    rw [pathIter_files fs k limit before text _ hf]
    simp [pathIter, h]

/-- a directory with two files and the same with the other order of listing -/
def exFs (names : List Str) : Str → Node := fun p =>
  if p = "d".toList then .dir names
  else if p = "d/b".toList then .file "x y\nz\n".toList
  else if p = "d/a".toList then .file "u v w\nt\n".toList
  else .missing

example : inputFiles (exFs ["b".toList, "a".toList]) "d".toList = .ok ["d/a".toList, "d/b".toList] := by decide +kernel

example : pathIter (exFs ["b".toList, "a".toList]) 2 (some 1) ["d/a".toList, "d/b".toList] =
    ([["u".toList, "v".toList], ["w".toList], ["x".toList, "y".toList]], none) := by decide +kernel

example : SortedNames ["a".toList, "b".toList] ∧ ["a".toList, "b".toList].Perm ["b".toList, "a".toList] :=
  by
  refine ⟨?_, by decide⟩
  have h : ["a".toList, "b".toList].Pairwise (fun a b => strLe a b = true) := by decide
  exact h.imp (fun {a b} h => (strLe_iff a b).mp h)

/-! ### The Brown corpus -/

/-- A token `word/tag` whose tag begins with a letter, and has a letter in the second place if it has one, is kept as
the lower-case word and the first two letters of the tag; a token with no slash, or with several, is not kept. -/
def KeptAs (letter : Char → Bool) (lower : Str → Str) (token kept : Str) : Prop :=
  ∃ word tag, token = word ++ '/' :: tag ∧ '/' ∉ word ∧ '/' ∉ tag ∧
    tag ≠ [] ∧ (∀ c ∈ tag.take 2, letter c = true) ∧ kept = lower word ++ '/' :: tag.take 2

theorem splitOn_two {t : Str} {ps : List Str} (h : splitOn '/' t = ps) (hl : ps.length = 2) :
    ∃ a b, ps = [a, b] ∧ t = a ++ '/' :: b ∧ '/' ∉ a ∧ '/' ∉ b := by
  subst h
  induction t with
  | nil => simp [splitOn] at hl
  | cons x t ih =>
    rw [splitOn] at hl ⊢
    by_cases hx : x = '/'
    · subst hx
      simp only [if_true] at hl ⊢
      have : (splitOn '/' t).length = 1 := by simpa using hl
      obtain ⟨b, hb⟩ := List.length_eq_one_iff.mp this
      have hb' : '/' ∉ t ∧ b = t := by
        clear ih hl
        induction t generalizing b with
        | nil => simp [splitOn] at hb; simp [hb]
        | cons y t ih2 =>
          rw [splitOn] at hb
          by_cases hy : y = '/'
          · subst hy
            simp only [if_true] at hb
            have := congrArg List.length hb
            simp at this
            exact absurd this (splitOn_ne_nil _ _)
          · rw [if_neg hy] at hb
            cases ht : splitOn '/' t with
            | nil => exact absurd ht (splitOn_ne_nil _ _)
            | cons g gs =>
              rw [ht] at hb
              simp only [List.cons.injEq] at hb
              obtain ⟨h1, h2⟩ := hb
              subst h2
              obtain ⟨h3, h4⟩ := ih2 (by rw [ht]; rfl) _ ht
              subst h4
              exact ⟨by simp [h3, Ne.symm hy], h1.symm⟩
      exact ⟨[], b, by rw [hb], by simp [hb'.2], by simp, by rw [hb'.2]; exact hb'.1⟩
    · rw [if_neg hx] at hl ⊢
      cases ht : splitOn '/' t with
      | nil => exact absurd ht (splitOn_ne_nil _ _)
      | cons g gs =>
        rw [ht] at ih hl
        simp only at hl ⊢
        obtain ⟨a, b, h1, h2, h3, h4⟩ := ih (by simpa using hl)
        simp only [List.cons.injEq] at h1
        obtain ⟨rfl, rfl⟩ := h1
        exact ⟨x :: g, b, rfl, by rw [h2]; rfl, by simp [h3, Ne.symm hx], h4⟩

theorem splitOn_of_two {a b : Str} (ha : '/' ∉ a) (hb : '/' ∉ b) : splitOn '/' (a ++ '/' :: b) = [a, b] := by
  rw [splitOn_append_sep ha, splitOn_no_sep hb]

/-- the token as it is kept, if it is -/
def keepToken (letter : Char → Bool) (lower : Str → Str) (t : Str) : Option Str :=
  if (splitOn '/' t).length = 2 ∧ isAlpha letter (((splitOn '/' t).getD 1 []).take 2) = true then
    some (lower ((splitOn '/' t).getD 0 []) ++ '/' :: ((splitOn '/' t).getD 1 []).take 2)
  else none

theorem keepToken_iff (letter : Char → Bool) (lower : Str → Str) (t w : Str) :
    keepToken letter lower t = some w ↔ KeptAs letter lower t w := by
  unfold keepToken KeptAs
  constructor
  · intro h
    split_ifs at h with hc
    obtain ⟨a, b, h1, h2, h3, h4⟩ := splitOn_two rfl hc.1
    rw [h1] at h hc
    have hal := hc.2
    simp only [List.getD_cons_succ, List.getD_cons_zero, Option.some.injEq] at h hal
    simp only [isAlpha, Bool.and_eq_true, decide_eq_true_eq, List.all_eq_true] at hal
    exact ⟨a, b, h2, h3, h4, by rintro rfl; simp at hal, hal.2, h.symm⟩
  · rintro ⟨a, b, rfl, ha, hb, hne, hal, rfl⟩
    rw [splitOn_of_two ha hb]
    rw [if_pos]
    · rfl
    · refine ⟨rfl, ?_⟩
      simp only [List.getD_cons_succ, List.getD_cons_zero, isAlpha, Bool.and_eq_true, decide_eq_true_eq,
        List.all_eq_true]
      exact ⟨by cases b <;> simp_all, hal⟩

theorem brownWords_eq (letter : Char → Bool) (lower : Str → Str) (line : Str) :
    brownWords letter lower line = (splitWs uws line).filterMap (keepToken letter lower) := by
  unfold brownWords
  simp only
  induction splitWs uws line with
  | nil => rfl
  | cons t ts ih =>
    rw [List.filterMap_cons]
    by_cases h : (splitOn '/' t).length = 2
    · rw [List.filter_cons_of_pos (by simpa using h), List.map_cons]
      by_cases h' : isAlpha letter (((splitOn '/' t).getD 1 []).take 2) = true
      · rw [List.filter_cons_of_pos (by simpa using h'), List.map_cons, ih]
        simp only [keepToken]
        rw [if_pos ⟨h, h'⟩]
      · rw [List.filter_cons_of_neg (by simpa using h'), ih]
        simp only [keepToken]
        rw [if_neg (fun hh => h' hh.2)]
    · rw [List.filter_cons_of_neg (by simpa using h), ih]
      simp only [keepToken]
      rw [if_neg (fun hh => h hh.1)]

/-- **C122.** `BrownCorpus` yields, for every file of the directory in the order in which the system lists them and
for every line of the file, the tokens that are kept, in order; a line without such tokens gives nothing. -/
theorem C122_brown (letter : Char → Bool) (lower : Str → Str) (fs : Str → Node) (dirname : Str) (names : List Str) :
    ∃ keep : Str → Option Str, (∀ t w, keep t = some w ↔ KeptAs letter lower t w) ∧
      brown letter lower fs dirname names =
        names.flatMap (fun n => match fs (pathJoin dirname n) with
          | .file text => ((pyLines text).map (fun line => (splitWs uws line).filterMap keep)).filter (· ≠ [])
          | .dir _ => []
          | .missing => []) := by
  refine ⟨keepToken letter lower, keepToken_iff letter lower, ?_⟩
  unfold brown
  congr 1
  funext n
  cases fs (pathJoin dirname n) with
  | file text =>
    simp only [brownFile]
    congr 2
    funext line
    exact brownWords_eq letter lower line
  | dir _ => rfl
  | missing => rfl

/-- **C122.** Another order of listing gives the same sentences in another order. -/
theorem C122_brown_listing (letter : Char → Bool) (lower : Str → Str) (fs : Str → Node) (dirname : Str)
    {names names' : List Str} (h : names.Perm names') :
    (brown letter lower fs dirname names).Perm (brown letter lower fs dirname names') :=
  h.flatMap_right _

theorem zipIdx_filter_fst {α β γ : Type} (f : α → β) (g : Nat → γ) (p : β → Bool) (l : List α) (i : Nat) :
    (((l.zipIdx i).map (fun q => (f q.1, g q.2))).filter (fun d => p d.1)).map Prod.fst = (l.map f).filter p := by
  induction l generalizing i with
  | nil => rfl
  | cons a l ih =>
    simp only [List.zipIdx_cons, List.map_cons, List.filter_cons]
    split_ifs <;> simp [ih]

/-- **C122.** `TaggedBrownCorpus` yields the sentences of `BrownCorpus`, and the tag of each is made of the path of its
file and the number of its line in that file (counting the lines that give nothing). -/
theorem C122_tagged_brown (letter : Char → Bool) (lower : Str → Str) (fs : Str → Node) (dirname : Str)
    (names : List Str) :
    (taggedBrown letter lower fs dirname names).map Prod.fst = brown letter lower fs dirname names ∧
    ∀ d ∈ taggedBrown letter lower fs dirname names, ∃ n ∈ names, ∃ text line, ∃ i : Nat,
      fs (pathJoin dirname n) = .file text ∧ (pyLines text)[i]? = some line ∧
      d.1 = brownWords letter lower line ∧ d.1 ≠ [] ∧
      d.2 = [pathJoin dirname n ++ "_SENT_".toList ++ showNat i] := by
  constructor
  · unfold taggedBrown brown
    rw [List.map_flatMap]
    congr 1
    funext n
    cases fs (pathJoin dirname n) with
    | file text =>
      exact zipIdx_filter_fst (brownWords letter lower) (fun i => [sentTag (pathJoin dirname n) i])
        (fun ws => decide (ws ≠ [])) (pyLines text) 0
    | dir _ => rfl
    | missing => rfl
  · intro d hd
    unfold taggedBrown at hd
    rw [List.mem_flatMap] at hd
    obtain ⟨n, hn, hd⟩ := hd
    refine ⟨n, hn, ?_⟩
    cases hf : fs (pathJoin dirname n) with
    | file text =>
      rw [hf] at hd
      simp only [taggedBrownFile, List.mem_filter, List.mem_map, decide_eq_true_eq] at hd
      obtain ⟨⟨⟨line, i⟩, hm, rfl⟩, hne⟩ := hd
      exact ⟨text, line, i, rfl, by simpa using List.mem_zipIdx_iff_getElem?.mp hm, rfl, hne, rfl⟩
    | dir _ => rw [hf] at hd; simp at hd
    | missing => rw [hf] at hd; simp at hd

theorem showNat_inj {i j : Nat} (h : showNat i = showNat j) : i = j := by
  have := readNatCore_showNat i
  rw [h, readNatCore_showNat] at this
  exact (Option.some.inj this).symm

theorem afterUnderscore (s : Str) (i : Nat) :
    ((s ++ '_' :: showNat i).reverse.takeWhile (· ≠ '_')).reverse = showNat i := by
  rw [List.reverse_append, List.reverse_cons, List.append_assoc]
  have h : ∀ c ∈ (showNat i).reverse, (decide (c ≠ '_')) = true := by
    intro c hc
    have := showNat_digit i c (List.mem_reverse.mp hc)
    rw [decide_eq_true_eq]
    rintro rfl
    exact absurd this.2 (by decide)
  rw [List.takeWhile_append_of_pos h]
  simp

theorem sentTag_inj {f g : Str} {i j : Nat} (h : sentTag f i = sentTag g j) : f = g ∧ i = j := by
  unfold sentTag at h
  have e : ∀ (f : Str) (i : Nat), f ++ "_SENT_".toList ++ showNat i = (f ++ "_SENT".toList) ++ '_' :: showNat i := by
    intro f i
    simp
  rw [e, e] at h
  have h2 := congrArg (fun s => (s.reverse.takeWhile (· ≠ '_')).reverse) h
  simp only [afterUnderscore] at h2
  have hij := showNat_inj h2
  subst hij
  exact ⟨by simpa using h, rfl⟩

theorem pathJoin_inj {d a b : Str} (h : pathJoin d a = pathJoin d b) : a = b := by
  unfold pathJoin at h
  split_ifs at h <;> simpa using h

theorem nodup_zipIdx_tags {α β γ : Type} (f : α → β) (g : Nat → γ) (hg : ∀ i j, g i = g j → i = j) (p : β × γ → Bool)
    (l : List α) (k : Nat) : ((((l.zipIdx k).map (fun q => (f q.1, g q.2))).filter p).map Prod.snd).Nodup := by
  have h1 : (((l.zipIdx k).map (fun q => (f q.1, g q.2))).map Prod.snd).Nodup := by
    rw [List.map_map]
    have : ((Prod.snd ∘ fun q : α × Nat => (f q.1, g q.2)) : α × Nat → γ) = g ∘ Prod.snd := by funext q; rfl
    rw [this, ← List.map_map, List.zipIdx_map_snd]
    exact List.Nodup.map (fun i j h => hg i j h) List.nodup_range'
  exact h1.sublist ((List.filter_sublist).map _)

/-- **C122.** The tags of `TaggedBrownCorpus` are all different. -/
theorem C122_tags_distinct (letter : Char → Bool) (lower : Str → Str) (fs : Str → Node) (dirname : Str)
    {names : List Str} (h : names.Nodup) :
    ((taggedBrown letter lower fs dirname names).map Prod.snd).Nodup := by
  unfold taggedBrown
  rw [List.map_flatMap, List.nodup_flatMap]
  have mem : ∀ n t, t ∈ (List.map Prod.snd (match fs (pathJoin dirname n) with
      | .file text => taggedBrownFile letter lower (pathJoin dirname n) text
      | _ => [])) → ∃ i, t = [sentTag (pathJoin dirname n) i] := by
    intro n t ht
    cases hf : fs (pathJoin dirname n) with
    | file text =>
      rw [hf] at ht
      simp only [taggedBrownFile, List.mem_map, List.mem_filter] at ht
      obtain ⟨d, ⟨⟨q, _, rfl⟩, _⟩, rfl⟩ := ht
      exact ⟨q.2, rfl⟩
    | dir _ => rw [hf] at ht; simp at ht
    | missing => rw [hf] at ht; simp at ht
  constructor
  · intro n _
    cases fs (pathJoin dirname n) with
    | file text =>
      exact nodup_zipIdx_tags (brownWords letter lower) (fun i => [sentTag (pathJoin dirname n) i])
        (fun i j h => (sentTag_inj (by simpa using h)).2) _ _ _
    | dir _ => simp
    | missing => simp
  · refine h.imp ?_
    intro a b hab t ha hb
    obtain ⟨i, rfl⟩ := mem a t ha
    obtain ⟨j, hj⟩ := mem b _ hb
    exact hab (pathJoin_inj (sentTag_inj (by simpa using hj)).1)

/-- **C122.** `TaggedLineDocument` yields one document for every line, with the words of the line and the number of
the line as its only tag; an empty line gives a document without words. -/
theorem C122_tagged_lines (text : Str) :
    (taggedLines text).length = (pyLines text).length ∧
    ∀ (i : Nat) (line : Str), (pyLines text)[i]? = some line → (taggedLines text)[i]? = some (splitWs uws line, [i]) := by
  unfold taggedLines
  refine ⟨by simp, ?_⟩
  intro i line h
  simp [h]

/-- a directory of the Brown corpus, with a directory in it -/
def exBrown : Str → Node := fun p =>
  if p = "br/ca".toList then .file "The/at Fulton/np-tl ,/,\n``/`` ./.\n1/2/cd said/vbd\n".toList
  else if p = "br/cb".toList then .file "x/n1 y/nn\n".toList
  else if p = "br/sub".toList then .dir []
  else .missing

example : taggedBrown (fun c => 'a' ≤ c && c ≤ 'z') (fun s => s.map Char.toLower) exBrown "br".toList
    ["cb".toList, "sub".toList, "ca".toList] =
    [(["y/nn".toList], ["br/cb_SENT_0".toList]),
     (["the/at".toList, "fulton/np".toList], ["br/ca_SENT_0".toList]),
     (["said/vb".toList], ["br/ca_SENT_2".toList])] := by decide +kernel

example : taggedLines "a b\n\nc".toList = [(["a".toList, "b".toList], [0]), ([], [1]), (["c".toList], [2])] := by
  decide +kernel

end Verif.Readers
