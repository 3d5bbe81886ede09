import Verif.Poincare.CsvModel
import Mathlib.Data.List.Forall2

/-!
# C160: relations from a file, and `CsvCorpus`
-/

namespace Verif.Csv

open Verif Verif.Text

/-! ## Specification -/

/-- `s` in a file stands for the field `f`: as it is (no delimiter, line end or NUL in it, no quote at its start),
    or in quotes, with quotes doubled (no NUL in it). -/
def Writes (delim : Char) (f s : Str) : Prop :=
  (s = f ∧ (∀ c ∈ f, c ≠ delim ∧ c ≠ '\n' ∧ c ≠ '\r' ∧ c ≠ '\x00') ∧ f.head? ≠ some '"') ∨
  (s = '"' :: (f.flatMap fun c => if c = '"' then ['"', '"'] else [c]) ++ ['"'] ∧ '\x00' ∉ f)

/-- `t` in a file stands for the row `r`: its fields with delimiters between them and a line end. A row of one empty
    field has to be quoted, otherwise it is an empty line. -/
def Row (delim : Char) (limit : Nat) (r : List Str) (t : Str) : Prop :=
  ∃ parts eol, List.Forall₂ (Writes delim) r parts ∧ (∀ f ∈ r, f.length ≤ limit) ∧ r ≠ [] ∧ parts ≠ [[]] ∧
    (eol = ['\n'] ∨ eol = ['\r', '\n']) ∧ t = [delim].intercalate parts ++ eol

/-- A usable delimiter. -/
def Usable (delim : Char) : Prop := delim ≠ '\n' ∧ delim ≠ '\r' ∧ delim ≠ '"' ∧ delim ≠ '\x00'

/-! ## Reading on in the middle of a line -/

/-- The rest of the rows when the line read so far led to `p` and `s` is left of the file. -/
def goOn (delim : Char) (limit : Nat) (p : P) (s : Str) : List (List Str) × Bool :=
  match pyLines s with
  | [] => iterate delim limit p [[]]
  | h :: t => iterate delim limit p (h :: t)

/-- Rows from a row end. -/
def after (delim : Char) (limit : Nat) (p : P) (s : Str) : List (List Str) × Bool :=
  if (endLine p).state = .startRecord then
    ((endLine p).fields :: (relations delim limit s).1, (relations delim limit s).2)
  else iterate delim limit (endLine p) (pyLines s)

variable {delim : Char} {limit : Nat}

theorem iterate_line (p : P) (l : Str) (ls : List Str) :
    iterate delim limit p (l :: ls) = match feed delim limit p l with
      | none => ([], true)
      | some p' => if (endLine p').state = .startRecord then
          ((endLine p').fields :: (iterate delim limit fresh ls).1, (iterate delim limit fresh ls).2)
        else iterate delim limit (endLine p') ls := by
  rw [iterate]; cases feed delim limit p l <;> rfl

theorem pyLines_ne {s : Str} (h : s ≠ []) : pyLines s ≠ [] := by
  intro e
  have := pyLines_flatten_id s
  rw [e] at this
  exact h this.symm

theorem goOn_eq {s : Str} (h : s ≠ []) (p : P) : iterate delim limit p (pyLines s) = goOn delim limit p s := by
  unfold goOn
  cases e : pyLines s with
  | nil => exact absurd e (pyLines_ne h)
  | cons => rfl

theorem goOn_step {c : Char} (hc : c ≠ '\n') {p p' : P} (s : Str) (h : step delim limit p c = some p') :
    goOn delim limit p (c :: s) = goOn delim limit p' s := by
  unfold goOn
  rw [pyLines, if_neg hc]
  cases e : pyLines s with
  | nil => simp only [iterate_line, feed, h, Option.bind_some]
  | cons l ls => simp only [iterate_line, feed, h, Option.bind_some]

theorem goOn_newline {p p' : P} (s : Str) (h : step delim limit p '\n' = some p') :
    goOn delim limit p ('\n' :: s) = after delim limit p' s := by
  unfold goOn after relations
  rw [pyLines, if_pos rfl]
  simp only [iterate_line, feed, h, Option.bind_some]

/-! ## Fields -/

/-- In the middle of a field that is not quoted. -/
theorem goOn_plain (f : Str) (hf : ∀ c ∈ f, c ≠ delim ∧ c ≠ '\n' ∧ c ≠ '\r' ∧ c ≠ '\x00') (g : Str) (acc : List Str)
    (hl : g.length + f.length ≤ limit) (s : Str) :
    goOn delim limit ⟨.inField, g, acc⟩ (f ++ s) = goOn delim limit ⟨.inField, g ++ f, acc⟩ s := by
  induction f generalizing g with
  | nil => simp
  | cons c f ih =>
    obtain ⟨h1, h2, h3, h4⟩ := hf c List.mem_cons_self
    have hstep : step delim limit ⟨.inField, g, acc⟩ c = some ⟨.inField, g ++ [c], acc⟩ := by
      rw [List.length_cons] at hl
      have : ¬ limit ≤ g.length := by omega
      simp [step, h4, isEol, h1, h2, h3, P.add, this]
    rw [List.cons_append, goOn_step h2 _ hstep, ih (fun x hx => hf x (List.mem_cons_of_mem _ hx)) _ (by
      rw [List.length_append, List.length_singleton]; rw [List.length_cons] at hl; omega)]
    simp

/-- In the middle of a quoted field. -/
theorem goOn_quoted (f : Str) (hf : '\x00' ∉ f) (g : Str) (acc : List Str) (hl : g.length + f.length ≤ limit) (s : Str) :
    goOn delim limit ⟨.inQuoted, g, acc⟩
        ((f.flatMap fun c => if c = '"' then ['"', '"'] else [c]) ++ '"' :: s)
      = goOn delim limit ⟨.quoteInQuoted, g ++ f, acc⟩ s := by
  induction f generalizing g with
  | nil =>
    rw [List.flatMap_nil, List.nil_append, List.append_nil]
    exact goOn_step (by decide) s (by simp [step])
  | cons c f ih =>
    rw [List.mem_cons, not_or] at hf
    have hlen : ¬ limit ≤ g.length := by rw [List.length_cons] at hl; omega
    have hl' : (g ++ [c]).length + f.length ≤ limit := by
      rw [List.length_append, List.length_singleton]; rw [List.length_cons] at hl; omega
    rw [List.flatMap_cons]
    by_cases hq : c = '"'
    · subst hq
      rw [if_pos rfl, List.append_assoc]
      simp only [List.cons_append, List.nil_append]
      rw [goOn_step (by decide) _ (show step delim limit ⟨.inQuoted, g, acc⟩ '"' = some ⟨.quoteInQuoted, g, acc⟩ by simp [step]),
        goOn_step (by decide) _ (show step delim limit ⟨.quoteInQuoted, g, acc⟩ '"' = some ⟨.inQuoted, g ++ ['"'], acc⟩ by
          simp [step, P.add, hlen]), ih hf.2 _ hl']
      simp
    · rw [if_neg hq, List.append_assoc]
      simp only [List.cons_append, List.nil_append]
      have hstep : step delim limit ⟨.inQuoted, g, acc⟩ c = some ⟨.inQuoted, g ++ [c], acc⟩ := by
        simp [step, Ne.symm hf.1, hq, P.add, hlen]
      by_cases hn : c = '\n'
      · subst hn
        rw [goOn_newline _ hstep]
        unfold after
        rw [if_neg (by simp [endLine])]
        change iterate delim limit ⟨.inQuoted, g ++ ['\n'], acc⟩ _ = _
        rw [goOn_eq (by simp), ih hf.2 _ hl']
        simp
      · rw [goOn_step hn _ hstep, ih hf.2 _ hl']
        simp

/-- The states in which a field may start. -/
def Begin (p : P) (acc : List Str) : Prop :=
  p = ⟨.startField, [], acc⟩ ∨ (p = fresh ∧ acc = [])

theorem begin_step {p : P} {acc : List Str} (hp : Begin p acc) {c : Char} (hc : isEol c = false) :
    step delim limit p c = step delim limit ⟨.startField, [], acc⟩ c := by
  rcases hp with rfl | ⟨rfl, rfl⟩
  · rfl
  · unfold step fresh
    simp only [hc, Bool.false_eq_true, if_false]
    rfl

/-- A field followed by a delimiter. -/
theorem goOn_field (hd : Usable delim) {p : P} {acc : List Str} (hp : Begin p acc) {f s : Str} (h : Writes delim f s)
    (hl : f.length ≤ limit) (rest : Str) :
    goOn delim limit p (s ++ delim :: rest) = goOn delim limit ⟨.startField, [], acc ++ [f]⟩ rest := by
  obtain ⟨d1, d2, d3, d4⟩ := hd
  have hde : isEol delim = false := by simp [isEol, d1, d2]
  rcases h with ⟨rfl, hf, hq⟩ | ⟨rfl, hf⟩
  · cases s with
    | nil =>
      rw [List.nil_append]
      refine goOn_step d1 _ ?_
      rw [begin_step hp hde]
      simp [step, d4, startField, hde, d3, P.save]
    | cons c f =>
      obtain ⟨h1, h2, h3, h4⟩ := hf c List.mem_cons_self
      have hc : c ≠ '"' := fun e => hq (by rw [e]; rfl)
      have hce : isEol c = false := by simp [isEol, h2, h3]
      rw [List.length_cons] at hl
      have hstep : step delim limit p c = some ⟨.inField, [c], acc⟩ := by
        rw [begin_step hp hce]
        have : ¬ limit ≤ 0 := by omega
        simp [step, h4, startField, hce, hc, h1, P.add, this]
      rw [List.cons_append, goOn_step h2 _ hstep,
        goOn_plain f (fun x hx => hf x (List.mem_cons_of_mem _ hx)) _ _ (by simp; omega)]
      refine goOn_step d1 _ ?_
      simp [step, d4, hde, P.save]
  · rw [List.cons_append, List.cons_append, List.append_assoc]
    have hstep : step delim limit p '"' = some ⟨.inQuoted, [], acc⟩ := by
      rw [begin_step hp (by decide)]; simp [step, startField, isEol]
    rw [goOn_step (by decide) _ hstep]
    simp only [List.cons_append, List.nil_append]
    rw [goOn_quoted f hf [] acc (by simpa using hl)]
    refine goOn_step d1 _ ?_
    simp [step, d4, d3, P.save]

/-- The last field of a row, followed by the line end. -/
theorem goOn_last (hd : Usable delim) {p : P} {acc : List Str} (hp : Begin p acc) {f s : Str} (h : Writes delim f s)
    (hl : f.length ≤ limit) (hne : acc ≠ [] ∨ s ≠ []) {eol : Str} (he : eol = ['\n'] ∨ eol = ['\r', '\n']) (rest : Str) :
    goOn delim limit p (s ++ (eol ++ rest))
      = ((acc ++ [f]) :: (relations delim limit rest).1, (relations delim limit rest).2) := by
  obtain ⟨d1, d2, d3, d4⟩ := hd
  have fin : ∀ q : P, (∀ c, isEol c = true → c ≠ '\x00' → step delim limit q c = some ⟨.eatCrnl, [], acc ++ [f]⟩) →
      goOn delim limit q (eol ++ rest)
        = ((acc ++ [f]) :: (relations delim limit rest).1, (relations delim limit rest).2) := by
    intro q hq
    rcases he with rfl | rfl
    · simp only [List.cons_append, List.nil_append]
      rw [goOn_newline _ (hq '\n' (by decide) (by decide))]
      rfl
    · simp only [List.cons_append, List.nil_append]
      rw [goOn_step (by decide) _ (hq '\r' (by decide) (by decide)),
        goOn_newline (p' := ⟨.eatCrnl, [], acc ++ [f]⟩) _ (by simp [step, isEol])]
      rfl
  rcases h with ⟨rfl, hf, hq⟩ | ⟨rfl, hf⟩
  · cases s with
    | nil =>
      rw [List.nil_append]
      refine fin p fun c hc hc0 => ?_
      rcases hp with rfl | ⟨rfl, rfl⟩
      · simp [step, hc0, startField, hc, P.save]
      · rcases hne with h | h <;> exact absurd rfl h
    | cons c f =>
      obtain ⟨h1, h2, h3, h4⟩ := hf c List.mem_cons_self
      have hc : c ≠ '"' := fun e => hq (by rw [e]; rfl)
      have hce : isEol c = false := by simp [isEol, h2, h3]
      rw [List.length_cons] at hl
      have hstep : step delim limit p c = some ⟨.inField, [c], acc⟩ := by
        rw [begin_step hp hce]
        have : ¬ limit ≤ 0 := by omega
        simp [step, h4, startField, hce, hc, h1, P.add, this]
      rw [List.cons_append, goOn_step h2 _ hstep,
        goOn_plain f (fun x hx => hf x (List.mem_cons_of_mem _ hx)) _ _ (by simp; omega)]
      refine fin _ fun c' hc' hc0 => ?_
      simp [step, hc0, hc', P.save]
  · rw [List.cons_append, List.cons_append, List.append_assoc]
    have hstep : step delim limit p '"' = some ⟨.inQuoted, [], acc⟩ := by
      rw [begin_step hp (by decide)]; simp [step, startField, isEol]
    rw [goOn_step (by decide) _ hstep]
    simp only [List.cons_append, List.nil_append]
    rw [goOn_quoted f hf [] acc (by simpa using hl)]
    refine fin _ fun c' hc' hc0 => ?_
    have h1 : c' ≠ '"' := fun e => by subst e; revert hc'; decide
    have h2 : c' ≠ delim := fun e => by subst e; simp [isEol, d1, d2] at hc'
    simp [step, hc0, h1, h2, hc', P.save]

theorem goOn_row (hd : Usable delim) (r : List Str) (parts : List Str) (h : List.Forall₂ (Writes delim) r parts)
    (hl : ∀ f ∈ r, f.length ≤ limit) (hr : r ≠ []) {eol : Str} (he : eol = ['\n'] ∨ eol = ['\r', '\n'])
    {p : P} {acc : List Str} (hp : Begin p acc) (hne : acc ≠ [] ∨ parts ≠ [[]]) (rest : Str) :
    goOn delim limit p ([delim].intercalate parts ++ eol ++ rest)
      = ((acc ++ r) :: (relations delim limit rest).1, (relations delim limit rest).2) := by
  induction h generalizing p acc with
  | nil => exact absurd rfl hr
  | @cons f s r parts hfs htail ih =>
    cases htail with
    | nil =>
      have : [delim].intercalate [s] = s := by simp [List.intercalate]
      rw [this, List.append_assoc]
      exact goOn_last hd hp hfs (hl f List.mem_cons_self) (hne.imp_right fun h e => h (by rw [e])) he rest
    | @cons f' s' r' parts' h1 h2 =>
      have : [delim].intercalate (s :: s' :: parts') = s ++ delim :: [delim].intercalate (s' :: parts') := by
        simp [List.intercalate]
      rw [this, List.append_assoc, List.append_assoc, List.cons_append,
        goOn_field hd hp hfs (hl f List.mem_cons_self), ← List.append_assoc,
        ih (fun x hx => hl x (List.mem_cons_of_mem _ hx)) (by simp) (.inl rfl) (.inl (by simp))]
      simp

theorem relations_cons {s : Str} (h : s ≠ []) : relations delim limit s = goOn delim limit fresh s :=
  goOn_eq h fresh

theorem row_ne {eol a rest : Str} (he : eol = ['\n'] ∨ eol = ['\r', '\n']) : a ++ eol ++ rest ≠ [] := by
  rcases he with rfl | rfl <;> simp

/-! ## C160 -/

/-- A file of rows, each field written plainly or in quotes, lines ended by `\n` or `\r\n`: exactly the rows are
    yielded, in order, and what follows in the file is read as if it were a file of its own. -/
theorem C160_rows (hd : Usable delim) (rows : List (List Str)) (texts : List Str)
    (h : List.Forall₂ (Row delim limit) rows texts) (rest : Str) :
    relations delim limit (texts.flatten ++ rest)
      = (rows ++ (relations delim limit rest).1, (relations delim limit rest).2) := by
  induction h with
  | nil => rfl
  | @cons r t rows texts hrt _ ih =>
    obtain ⟨parts, eol, h1, h2, h3, h4, he, rfl⟩ := hrt
    rw [List.flatten_cons, List.append_assoc, relations_cons (row_ne he),
      goOn_row hd r parts h1 h2 h3 he (.inr ⟨rfl, rfl⟩) (.inr h4), ih]
    simp

/-- The last line may lack its line end. -/
theorem C160_last_line (hd : Usable delim) (u v : Str)
    (hu : ∀ c ∈ u, c ≠ delim ∧ c ≠ '\n' ∧ c ≠ '\r' ∧ c ≠ '\x00') (hq : u.head? ≠ some '"') (hul : u.length ≤ limit)
    (hv : ∀ c ∈ v, c ≠ delim ∧ c ≠ '\n' ∧ c ≠ '\r' ∧ c ≠ '\x00') (hvq : v.head? ≠ some '"') (hvl : v.length ≤ limit) :
    relations delim limit (u ++ delim :: v) = ([[u, v]], false) := by
  rw [relations_cons (by simp), goOn_field hd (.inr ⟨rfl, rfl⟩) (.inl ⟨rfl, hu, hq⟩) hul]
  cases v with
  | nil => rfl
  | cons c v =>
    obtain ⟨h1, h2, h3, h4⟩ := hv c List.mem_cons_self
    have hc : c ≠ '"' := fun e => hvq (by rw [e]; rfl)
    rw [List.length_cons] at hvl
    have hstep : step delim limit ⟨.startField, [], [] ++ [u]⟩ c = some ⟨.inField, [c], [u]⟩ := by
      have : ¬ limit ≤ 0 := by omega
      simp [step, h4, startField, isEol, h2, h3, hc, h1, P.add, this]
    rw [goOn_step h2 _ hstep]
    have := goOn_plain (delim := delim) (limit := limit) v (fun x hx => hv x (List.mem_cons_of_mem _ hx)) [c] [u]
      (by simp; omega) []
    rw [List.append_nil] at this
    rw [this]
    rfl

/-- An empty line yields an empty row (which `PoincareModel` refuses), wherever it is. -/
theorem C160_empty_line (rest : Str) :
    relations delim limit ('\n' :: rest) = ([] :: (relations delim limit rest).1, (relations delim limit rest).2) ∧
    relations delim limit ('\r' :: '\n' :: rest)
      = ([] :: (relations delim limit rest).1, (relations delim limit rest).2) := by
  constructor
  · rw [relations_cons (by simp), goOn_newline (p' := ⟨.eatCrnl, [], []⟩) _ (by simp [step, fresh, isEol])]
    rfl
  · rw [relations_cons (by simp), goOn_step (by decide) (p' := ⟨.eatCrnl, [], []⟩) _ (by simp [step, fresh, isEol]),
      goOn_newline (p' := ⟨.eatCrnl, [], []⟩) _ (by simp [step, isEol])]
    rfl

theorem goOn_open (rest : Str) (hr : '"' ∉ rest) (h0 : '\x00' ∉ rest) (g : Str) (acc : List Str)
    (hl : g.length + rest.length ≤ limit) :
    goOn delim limit ⟨.inQuoted, g, acc⟩ rest = ([acc ++ [g ++ rest]], false) := by
  induction rest generalizing g with
  | nil =>
    simp [goOn, pyLines, iterate, feed, endLine]
  | cons c rest ih =>
    rw [List.mem_cons, not_or] at hr h0
    have hlen : ¬ limit ≤ g.length := by rw [List.length_cons] at hl; omega
    have hl' : (g ++ [c]).length + rest.length ≤ limit := by
      rw [List.length_append, List.length_singleton]; rw [List.length_cons] at hl; omega
    have hstep : step delim limit ⟨.inQuoted, g, acc⟩ c = some ⟨.inQuoted, g ++ [c], acc⟩ := by
      simp [step, Ne.symm h0.1, Ne.symm hr.1, P.add, hlen]
    by_cases hn : c = '\n'
    · subst hn
      rw [goOn_newline _ hstep]
      unfold after
      rw [if_neg (by simp [endLine])]
      change iterate delim limit ⟨.inQuoted, g ++ ['\n'], acc⟩ _ = _
      cases rest with
      | nil => simp [pyLines, iterate]
      | cons x xs =>
        rw [goOn_eq (by simp), ih hr.2 h0.2 _ hl']
        simp
    · rw [goOn_step hn _ hstep, ih hr.2 h0.2 _ hl']
      simp

/-- Finding: if the second node of a relation begins with a quote that is never closed, everything up to the end of
    the file, with all the relations in it, becomes part of that node: one relation is yielded and no error raised. -/
theorem C160_open_quote (hd : Usable delim) (rows : List (List Str)) (texts : List Str)
    (h : List.Forall₂ (Row delim limit) rows texts) (u rest : Str)
    (hu : ∀ c ∈ u, c ≠ delim ∧ c ≠ '\n' ∧ c ≠ '\r' ∧ c ≠ '\x00') (hq : u.head? ≠ some '"') (hul : u.length ≤ limit)
    (hr : '"' ∉ rest) (h0 : '\x00' ∉ rest) (hl : rest.length ≤ limit) :
    relations delim limit (texts.flatten ++ (u ++ delim :: '"' :: rest)) = (rows ++ [[u, rest]], false) := by
  rw [C160_rows hd rows texts h, relations_cons (by simp),
    goOn_field hd (.inr ⟨rfl, rfl⟩) (.inl ⟨rfl, hu, hq⟩) hul,
    goOn_step (by decide) (p' := ⟨.inQuoted, [], [u]⟩) _ (by simp [step, startField, isEol]),
    goOn_open rest hr h0 [] [u] (by simpa using hl)]
  rfl

/-- Rows yielded before an unreadable line are yielded; then `csv.Error` is raised. A carriage return in the middle of
    a line and NUL are such places. -/
theorem C160_error (hd : Usable delim) (rows : List (List Str)) (texts : List Str)
    (h : List.Forall₂ (Row delim limit) rows texts) (u rest : Str) (c : Char)
    (hu : ∀ c ∈ u, c ≠ delim ∧ c ≠ '\n' ∧ c ≠ '\r' ∧ c ≠ '\x00') (hq : u.head? ≠ some '"') (hul : u.length ≤ limit)
    (hc : c ≠ '\n' ∧ c ≠ '\r') :
    relations delim limit (texts.flatten ++ (u ++ delim :: '\r' :: c :: rest)) = (rows, true) ∧
    relations delim limit (texts.flatten ++ (u ++ delim :: '\x00' :: rest)) = (rows, true) := by
  have bad : ∀ (p : P) (x : Char) (s : Str), x ≠ '\n' → step delim limit p x = none →
      goOn delim limit p (x :: s) = ([], true) := by
    intro p x s hx hs
    unfold goOn
    rw [pyLines, if_neg hx]
    cases e : pyLines s with
    | nil => simp only [iterate_line, feed, hs, Option.bind_none]
    | cons l ls => simp only [iterate_line, feed, hs, Option.bind_none]
  constructor
  · rw [C160_rows hd rows texts h, relations_cons (by simp),
      goOn_field hd (.inr ⟨rfl, rfl⟩) (.inl ⟨rfl, hu, hq⟩) hul,
      goOn_step (by decide) (p' := ⟨.eatCrnl, [], [u, []]⟩) _ (by simp [step, startField, isEol, P.save]),
      bad _ c _ hc.1 (by by_cases e : c = '\x00' <;> simp [step, e, isEol, hc.1, hc.2])]
    simp
  · rw [C160_rows hd rows texts h, relations_cons (by simp),
      goOn_field hd (.inr ⟨rfl, rfl⟩) (.inl ⟨rfl, hu, hq⟩) hul,
      bad _ _ _ (by decide) (by simp [step])]
    simp

/-- Finding: `CsvCorpus` cannot be constructed from any file: the lines of a file opened as binary are `bytes`, which
    `''.join` refuses, and an empty sample is refused by the sniffer. -/
theorem C160_csv_corpus {D : Type} (sniff : Str → Except Err D) (hs : ∃ e, sniff [] = .error e)
    (lines : List (List UInt8)) : ∃ e, csvInit sniff lines = .error e := by
  cases lines with
  | nil => exact hs
  | cons l ls => exact ⟨.type, rfl⟩

/-! ## The hypotheses are met -/

example : Usable '\t' := by unfold Usable; decide

example : List.Forall₂ (Row '\t' 131072) [["kangaroo".toList, "marsu\"pial\n".toList], ["a\"b".toList, []]]
    ["kangaroo\t\"marsu\"\"pial\n\"\r\n".toList, "a\"b\t\n".toList] := by
  refine .cons ⟨["kangaroo".toList, "\"marsu\"\"pial\n\"".toList], "\r\n".toList,
    .cons (.inl ⟨rfl, by decide +kernel, by decide +kernel⟩) (.cons (.inr ⟨by decide +kernel, by decide +kernel⟩) .nil), by decide +kernel, by decide,
    by decide, .inr rfl, by decide +kernel⟩ (.cons ⟨["a\"b".toList, []], "\n".toList,
    .cons (.inl ⟨rfl, by decide +kernel, by decide +kernel⟩) (.cons (.inl ⟨rfl, by decide, by decide⟩) .nil), by decide +kernel, by decide,
    by decide, .inl rfl, by decide +kernel⟩ .nil)

example : relations '\t' 131072 "a\t\"b\nc\td\ne\tf\n".toList = ([["a".toList, "b\nc\td\ne\tf\n".toList]], false) := by
  decide +kernel

example : ∃ e, (fun _ : Str => (Except.error Err.csv : Except Err Unit)) [] = .error e := ⟨_, rfl⟩

end Verif.Csv
